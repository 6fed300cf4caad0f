import Verif.Server.WindowHash
/-!
C111: filters of channels and tabs: `data/js/classes/TabInterface.js` 80–112 (`updateChannelStyles`,
`channelKeydown`), `data/js/classes/TabFilter.js` 17–47 and what becomes of a filter at the next start
(`WindowHashManager.js` 76–93 and 147–193, `App.js` 31–62).

Regular expressions are a parameter: `new RegExp(pattern)` is `none` if it raises, otherwise the test. The text box is
the browser's: `keydown` handlers run first, then the key has its usual effect on the text. Selections are left out.
Tabs are told apart by their names (C93 has the names that collide).
-/
namespace Verif.Filters
open Verif.Pages (Str)
open Verif.WindowHash

/-- `new RegExp` and `test`. -/
abbrev Rx := Str → Option (Str → Bool)

def kAll : Str := ".*".toList

/-- The pattern in use: 82–85 and TabFilter.js 20–23. -/
def effective (p : Str) : Str := if p = [] then kAll else p

/-! ### The text box -/

def kEnter : Str := "Enter".toList
def kBackspace : Str := "Backspace".toList
def kDelete : Str := "Delete".toList

/-- A key, as `event.key` names it, and what the browser does with it. -/
inductive Key where
  /-- a character, which is inserted -/
  | char (c : Char)
  | backspace
  | enter
  /-- `ArrowLeft`, `Home` and the like: the caret is moved, nothing else -/
  | caret (name : Str) (pos : Nat)
  /-- `Delete` -/
  | delete
  /-- `Shift`, `Tab`, `F5`, …: no effect on the text -/
  | named (name : Str)
  /-- a character with Control or Meta: not inserted, but what is pasted or cut may replace the text -/
  | control (c : Char) (after : Str)

/-- `event.key`. -/
def Key.name : Key → Str
  | .char c => [c]
  | .backspace => kBackspace
  | .enter => kEnter
  | .caret n _ => n
  | .delete => kDelete
  | .named n => n
  | .control c _ => [c]

/-- The text and the place of the caret. -/
structure Box where
  text : Str
  caret : Nat

/-- The browser's part, after the handler. -/
def Box.apply (b : Box) : Key → Box
  | .char c => ⟨b.text.take b.caret ++ c :: b.text.drop b.caret, b.caret + 1⟩
  | .backspace => if b.caret = 0 then b else ⟨b.text.take (b.caret - 1) ++ b.text.drop b.caret, b.caret - 1⟩
  | .enter => b
  | .caret _ p => { b with caret := min p b.text.length }
  | .delete => { b with text := b.text.take b.caret ++ b.text.drop (b.caret + 1) }
  | .named _ => b
  | .control _ t => ⟨t, t.length⟩

/-! ### The channel filter -/

/-- A filter: its box, the pattern last handed to `updateChannelStyles` (kept for the window's hash, 80) and whether
the row of a channel is shown. -/
structure Filter where
  box : Box
  pattern : Str
  shown : Str → Bool

/-- A page begins with all rows. -/
def Filter.init : Filter := ⟨⟨[], 0⟩, [], fun _ => true⟩

/-- `updateChannelStyles`, 79–95: the pattern is kept first; an expression that is none raises before any row is
changed. -/
def Filter.update (rx : Rx) (f : Filter) (p : Str) : Filter :=
  match rx (effective p) with
  | none => { f with pattern := p }
  | some test => { f with pattern := p, shown := test }

/-- `channelKeydown`, 97–112 (and `keydown`, TabFilter.js 34–47): the text before the key takes effect, and the
name of the key. -/
def Filter.keydown (rx : Rx) (f : Filter) (k : Key) : Filter :=
  if k.name = kEnter then Filter.update rx { f with box := ⟨[], 0⟩ } []
  else if k.name = kBackspace then f.update rx f.box.text.dropLast
  else f.update rx (f.box.text ++ k.name)

/-- A key. -/
def Filter.press (rx : Rx) (f : Filter) (k : Key) : Filter :=
  let f := f.keydown rx k
  { f with box := f.box.apply k }

def Filter.run (rx : Rx) (f : Filter) (ks : List Key) : Filter := ks.foldl (Filter.press rx) f

/-! ### Rows -/

theorem update_box (rx : Rx) (f : Filter) (p : Str) : (f.update rx p).box = f.box := by
  unfold Filter.update; split <;> rfl

theorem update_pattern (rx : Rx) (f : Filter) (p : Str) : (f.update rx p).pattern = p := by
  unfold Filter.update; split <;> rfl

/-- The patterns given to `updateChannelStyles` one after the other. -/
def Filter.given (rx : Rx) : Filter → List Key → List Str
  | _, [] => []
  | f, k :: ks => (f.press rx k).pattern :: Filter.given rx (f.press rx k) ks

/-- The last one of some patterns that is an expression. -/
def lastGood (rx : Rx) (l : List Str) : Option (Str → Bool) := (l.filterMap (fun p => rx (effective p))).getLast?

theorem press_shown (rx : Rx) (f : Filter) (k : Key) :
    (f.press rx k).shown = (rx (effective (f.press rx k).pattern)).getD f.shown := by
  have key : ∀ (g : Filter) p, (g.update rx p).shown = (rx (effective p)).getD g.shown := by
    intro g p; unfold Filter.update; split <;> simp [*]
  unfold Filter.press Filter.keydown
  dsimp only
  split
  · rw [key, update_pattern]
  · split <;> rw [key, update_pattern]

/-- C111: whatever is typed, the rows shown are those that match the last pattern that is an expression, or all. -/
theorem C111_rows (rx : Rx) (ks : List Key) (n : Str) :
    (Filter.init.run rx ks).shown n = ((lastGood rx (Filter.init.given rx ks)).getD fun _ => true) n := by
  have gen : ∀ (ks : List Key) (f : Filter),
      (f.run rx ks).shown = (lastGood rx (f.given rx ks)).getD f.shown := by
    intro ks
    induction ks with
    | nil => intro f; rfl
    | cons k ks ih =>
      intro f
      show ((f.press rx k).run rx ks).shown = _
      rw [ih, press_shown]
      unfold lastGood
      rw [Filter.given, List.filterMap_cons]
      cases h : rx (effective (f.press rx k).pattern) with
      | none => rfl
      | some t =>
        simp only [Option.getD_some]
        cases hg : List.filterMap (fun p => rx (effective p)) ((f.press rx k).given rx ks) with
        | nil => rfl
        | cons a l => rw [List.getLast?_cons_cons]; simp [List.getLast?_cons]
  rw [gen]
  rfl

/-! ### What is typed -/

/-- Keys by which a text is typed from left to right. -/
def Typing : Key → Prop
  | .char _ => True
  | .backspace => True
  | .enter => True
  | _ => False

theorem enter_ne (c : Char) : [c] ≠ kEnter ∧ [c] ≠ kBackspace := by
  have l1 : kEnter.length = 5 := by decide
  have l2 : kBackspace.length = 9 := by decide
  constructor
  · intro h; rw [← h] at l1; simp at l1
  · intro h; rw [← h] at l2; simp at l2

theorem keydown_other (rx : Rx) (f : Filter) {k : Key} (h1 : k.name ≠ kEnter) (h2 : k.name ≠ kBackspace) :
    f.keydown rx k = f.update rx (f.box.text ++ k.name) := by
  unfold Filter.keydown; rw [if_neg h1, if_neg h2]

theorem press_other (rx : Rx) (f : Filter) {k : Key} (h1 : k.name ≠ kEnter) (h2 : k.name ≠ kBackspace) :
    (f.press rx k).pattern = f.box.text ++ k.name ∧ (f.press rx k).box = f.box.apply k := by
  unfold Filter.press
  rw [keydown_other rx f h1 h2]
  exact ⟨update_pattern .., congrArg (Box.apply · k) (update_box ..)⟩

theorem press_char (rx : Rx) (f : Filter) (c : Char) :
    (f.press rx (.char c)).pattern = f.box.text ++ [c] ∧
      (f.press rx (.char c)).box = ⟨f.box.text.take f.box.caret ++ c :: f.box.text.drop f.box.caret, f.box.caret + 1⟩ :=
  press_other rx f (k := .char c) (enter_ne c).1 (enter_ne c).2

theorem press_backspace (rx : Rx) (f : Filter) :
    (f.press rx .backspace).pattern = f.box.text.dropLast ∧ (f.press rx .backspace).box = f.box.apply .backspace := by
  have h : f.keydown rx .backspace = f.update rx f.box.text.dropLast := by
    have h1 : Key.name .backspace ≠ kEnter := by decide
    have h2 : Key.name .backspace = kBackspace := rfl
    unfold Filter.keydown; rw [if_neg h1, if_pos h2]
  unfold Filter.press
  rw [h]
  exact ⟨update_pattern .., congrArg (Box.apply · .backspace) (update_box ..)⟩

theorem press_enter (rx : Rx) (f : Filter) :
    (f.press rx .enter).pattern = [] ∧ (f.press rx .enter).box = ⟨[], 0⟩ := by
  have h : f.keydown rx .enter = Filter.update rx { f with box := ⟨[], 0⟩ } [] := by
    have h2 : Key.name .enter = kEnter := rfl
    unfold Filter.keydown; rw [if_pos h2]
  unfold Filter.press
  rw [h]
  exact ⟨update_pattern .., congrArg (Box.apply · .enter) (update_box ..)⟩

/-- C111: with characters, Backspace and Enter only, the filter follows the text box: after every key its pattern is
the text, and if that is an expression the rows shown are those that match it. -/
theorem C111_typed_partial (rx : Rx) (ks : List Key) (h : ∀ k ∈ ks, Typing k) :
    (Filter.init.run rx ks).pattern = (Filter.init.run rx ks).box.text ∧
    (ks ≠ [] → ∀ test, rx (effective (Filter.init.run rx ks).box.text) = some test →
      (Filter.init.run rx ks).shown = test) := by
  have one : ∀ (f : Filter) (k : Key), Typing k → f.box.caret = f.box.text.length →
      (f.press rx k).pattern = (f.press rx k).box.text ∧ (f.press rx k).box.caret = (f.press rx k).box.text.length := by
    intro f k hk hc
    cases k with
    | char c =>
      obtain ⟨a, b⟩ := press_char rx f c
      rw [a, b, hc]
      simp
    | backspace =>
      obtain ⟨a, b⟩ := press_backspace rx f
      rw [a, b]
      simp only [Box.apply]
      by_cases h0 : f.box.caret = 0
      · rw [if_pos h0]
        have : f.box.text = [] := List.eq_nil_of_length_eq_zero (by omega)
        rw [this, h0]
        simp
      · rw [if_neg h0, hc]
        simp [List.dropLast_eq_take]
    | enter =>
      obtain ⟨a, b⟩ := press_enter rx f
      rw [a, b]
      exact ⟨rfl, rfl⟩
    | caret _ _ => exact hk.elim
    | delete => exact hk.elim
    | named _ => exact hk.elim
    | control _ _ => exact hk.elim
  have gen : ∀ (ks : List Key) (f : Filter), (∀ k ∈ ks, Typing k) → f.box.caret = f.box.text.length →
      f.pattern = f.box.text →
      (f.run rx ks).pattern = (f.run rx ks).box.text ∧ (f.run rx ks).box.caret = (f.run rx ks).box.text.length := by
    intro ks
    induction ks with
    | nil => intro f _ hc hp; exact ⟨hp, hc⟩
    | cons k ks ih =>
      intro f hk hc hp
      obtain ⟨a, b⟩ := one f k (hk k (by simp)) hc
      exact ih _ (fun x hx => hk x (by simp [hx])) b a
  refine ⟨(gen ks _ h rfl rfl).1, fun hne test ht => ?_⟩
  obtain ⟨l, k, rfl⟩ : ∃ l k, ks = l ++ [k] := ⟨ks.dropLast, ks.getLast hne, (List.dropLast_concat_getLast hne).symm⟩
  have hp := (gen _ Filter.init h rfl rfl).1
  have hr : Filter.init.run rx (l ++ [k]) = (Filter.init.run rx l).press rx k := by simp [Filter.run]
  rw [hr] at hp ht ⊢
  rw [press_shown, hp, ht]
  rfl

/-- C111: and after anything else, a character typed at the end of the text puts the filter in step again. -/
theorem C111_resync (rx : Rx) (ks : List Key) (c : Char)
    (h : (Filter.init.run rx ks).box.caret = (Filter.init.run rx ks).box.text.length) :
    (Filter.init.run rx (ks ++ [.char c])).pattern = (Filter.init.run rx (ks ++ [.char c])).box.text := by
  have hr : Filter.init.run rx (ks ++ [.char c]) = (Filter.init.run rx ks).press rx (.char c) := by simp [Filter.run]
  rw [hr]
  obtain ⟨a, b⟩ := press_char rx (Filter.init.run rx ks) c
  rw [a, b, h]
  simp

/-- C111: Enter empties the box and shows all rows again, whatever was typed. -/
theorem C111_cleared (rx : Rx) (hall : rx kAll = some fun _ => true) (ks : List Key) (n : Str) :
    (Filter.init.run rx (ks ++ [.enter])).box.text = [] ∧ (Filter.init.run rx (ks ++ [.enter])).pattern = [] ∧
    (Filter.init.run rx (ks ++ [.enter])).shown n = true := by
  have hr : Filter.init.run rx (ks ++ [.enter]) = (Filter.init.run rx ks).press rx .enter := by simp [Filter.run]
  rw [hr]
  obtain ⟨a, b⟩ := press_enter rx (Filter.init.run rx ks)
  refine ⟨by rw [b], a, ?_⟩
  rw [press_shown, a]
  unfold effective
  rw [if_pos rfl, hall]
  rfl

/-- C111: every other key spoils the filter until then: its name is appended to the pattern, although the text stays
(or becomes another). -/
theorem C111_named_fails (rx : Rx) (f : Filter) (n : Str) (h1 : n ≠ kEnter) (h2 : n ≠ kBackspace)
    (h0 : n ≠ []) (p : Nat) :
    ((f.press rx (.named n)).pattern = f.box.text ++ n ∧ (f.press rx (.named n)).box.text = f.box.text ∧
      (f.press rx (.named n)).pattern ≠ (f.press rx (.named n)).box.text) ∧
    ((f.press rx (.caret n p)).pattern = f.box.text ++ n ∧ (f.press rx (.caret n p)).box.text = f.box.text) ∧
    ((f.press rx .delete).pattern = f.box.text ++ kDelete) ∧
    ∀ c t, (f.press rx (.control c t)).pattern = f.box.text ++ [c] ∧ (f.press rx (.control c t)).box.text = t := by
  refine ⟨?_, ?_, ?_, fun c t => ?_⟩
  · obtain ⟨a, b⟩ := press_other rx f (k := .named n) h1 h2
    refine ⟨a, congrArg Box.text b, ?_⟩
    rw [a, b]
    intro h
    exact h0 (List.append_right_eq_self.mp h)
  · obtain ⟨a, b⟩ := press_other rx f (k := .caret n p) h1 h2
    refine ⟨a, ?_⟩
    rw [b]
    rfl
  · exact (press_other rx f (k := .delete) (by decide) (by decide)).1
  · obtain ⟨a, b⟩ := press_other rx f (k := .control c t) (enter_ne c).1 (enter_ne c).2
    exact ⟨a, congrArg Box.text b⟩

/-- C111: with the caret inside the text, a character goes to the end of the pattern but into the middle of the text,
and Backspace takes away another character than it does from the text. -/
theorem C111_caret_fails (rx : Rx) (f : Filter) (a b : Str) (hb : f.box = ⟨a ++ b, a.length⟩) (c : Char) :
    ((f.press rx (.char c)).pattern = a ++ b ++ [c] ∧ (f.press rx (.char c)).box.text = a ++ c :: b) ∧
    (a ≠ [] → (f.press rx .backspace).pattern = (a ++ b).dropLast ∧ (f.press rx .backspace).box.text = a.dropLast ++ b) := by
  constructor
  · obtain ⟨x, y⟩ := press_char rx f c
    rw [x, y, hb]
    simp
  · intro ha
    obtain ⟨x, y⟩ := press_backspace rx f
    rw [x, y, hb]
    have hl : a.length ≠ 0 := by simpa using ha
    simp only [Box.apply, if_neg hl]
    refine ⟨trivial, ?_⟩
    rw [List.take_append_of_le_length (by omega), List.drop_left, List.dropLast_eq_take]

/-- C111: a pattern that is no expression changes no row, but is kept as the filter of the tab. -/
theorem C111_invalid_fails (rx : Rx) (f : Filter) (c : Char) (h : rx (f.box.text ++ [c]) = none) :
    (f.press rx (.char c)).shown = f.shown ∧ (f.press rx (.char c)).pattern = f.box.text ++ [c] := by
  have hp := (press_char rx f c).1
  refine ⟨?_, hp⟩
  rw [press_shown, hp]
  have : effective (f.box.text ++ [c]) = f.box.text ++ [c] := by
    unfold effective; rw [if_neg (by simp)]
  rw [this, h]
  rfl

/-! ### The next start -/

variable {N : Type} [DecidableEq N]

/-- Whether a page opened with this hash comes to its main loop: `initButtons` (App.js 49) raises for a tab that is not
there (`restore`) and for a filter that is no expression (`setTabChannelFilter`, `updateTabFilter`), and nothing after
it is run: no tab is chosen, no settings are read, the main loop is not started (App.js 49–62). A built hash has at
most one filter for each tab. -/
def starts (M : Num N) (rx : Rx) (page : Page) (orig : Str) : Bool :=
  let r := restore M page orig
  !r.2 && (page.all fun p => (r.1.filterOf p.1).isEmpty || (rx (r.1.filterOf p.1)).isSome) &&
    (r.1.tabFilter.isEmpty || (rx r.1.tabFilter).isSome)

/-- C111: a page starts from the hash of a view (without separators in it) exactly if all filters are
expressions. -/
theorem C111_starts_partial {M : Num N} (hnum : ∀ x, M.num (M.fmt x) = x) (rx : Rx) (enc : Char → Str)
    (hne : ∀ c, enc c ≠ []) (page : Page) (hn : (page.map (·.1)).Nodup) (v : View N) (ok : Ok M page v) (htn : TabName v)
    (hp : Plain M enc page v) (hf : ∀ c ∈ v.tabFilter, enc c = [c]) :
    starts M rx page (encode enc (build M page v)) = true ↔
      (∀ p ∈ page, v.filterOf p.1 = [] ∨ (rx (v.filterOf p.1)).isSome) ∧ (v.tabFilter = [] ∨ (rx v.tabFilter).isSome) := by
  obtain ⟨w, h1, -, h3, -, -, -, -, h4⟩ := C94_restores_partial hnum enc hne page hn v ok htn hp hf
  unfold starts
  rw [h1]
  simp only [Bool.not_false, Bool.true_and, Bool.and_eq_true, List.all_eq_true, Bool.or_eq_true, List.isEmpty_iff, h3]
  constructor
  · rintro ⟨a, b⟩
    exact ⟨fun p hp => by rw [← (h4 p.1 (List.mem_map_of_mem hp)).1]; exact a p hp, b⟩
  · rintro ⟨a, b⟩
    exact ⟨fun p hp => by rw [(h4 p.1 (List.mem_map_of_mem hp)).1]; exact a p hp, b⟩

/-- C111: so a page reloaded while a filter is half typed (its text is no expression yet, such as `a(`) does not
start, and neither does any page opened with its link. -/
theorem C111_reload_fails {M : Num N} (hnum : ∀ x, M.num (M.fmt x) = x) (rx : Rx) (enc : Char → Str)
    (hne : ∀ c, enc c ≠ []) (page : Page) (hn : (page.map (·.1)).Nodup) (v : View N) (t : Str)
    (ht : t ∈ page.map (·.1)) (f : Filter) (c : Char) (hbad : rx (f.box.text ++ [c]) = none)
    (ok : Ok M page { v with filters := dset v.filters t (f.press rx (.char c)).pattern })
    (htn : TabName { v with filters := dset v.filters t (f.press rx (.char c)).pattern })
    (hp : Plain M enc page { v with filters := dset v.filters t (f.press rx (.char c)).pattern })
    (hf : ∀ c ∈ v.tabFilter, enc c = [c]) :
    starts M rx page (encode enc (build M page { v with filters := dset v.filters t (f.press rx (.char c)).pattern })) =
      false := by
  rw [← Bool.not_eq_true, C111_starts_partial hnum rx enc hne page hn _ ok htn hp hf]
  rintro ⟨h, -⟩
  obtain ⟨p, hpm, rfl⟩ := List.mem_map.mp ht
  have hfl : View.filterOf { v with filters := dset v.filters p.1 (f.press rx (.char c)).pattern } p.1 = f.box.text ++ [c] := by
    show (dget (dset v.filters p.1 (f.press rx (.char c)).pattern) p.1).getD [] = _
    rw [dget_dset, if_pos rfl, (press_char rx f c).1]
    rfl
  rcases h p hpm with h | h
  · rw [hfl] at h; simp at h
  · rw [hfl, hbad] at h; cases h

/-- C111: a page does not start from a hash with settings for a tab that it no longer has, whatever the
expressions. -/
theorem C111_gone_fails {M : Num N} (rx : Rx) (page page' : Page) (v : View N) (ok : Ok M page v) (t : Str)
    (ht : t ∈ page.map (·.1)) (hi : v.items t ≠ []) (hg : dget page' t = none) :
    starts M rx page' (build M page v) = false := by
  unfold starts
  dsimp only
  rw [(C94_gone_fails page page' v ok t ht hi hg).1]
  rfl

/-! ### The tab filter -/

/-- The buttons of the tabs: which are hidden, and the active one. -/
structure Tabs where
  hidden : Str → Bool
  active : Str

/-- `updateStyles`, TabFilter.js 17–32. -/
def Tabs.update (rx : Rx) (s : Tabs) (p : Str) : Tabs :=
  match rx (effective p) with
  | none => s
  | some test => { s with hidden := fun n => if test n then false else if n = s.active then s.hidden n else true }

inductive TabEv where
  /-- a pattern from the text box (keys as above) -/
  | filter (p : Str)
  /-- a click on a button, which must be visible -/
  | click (n : Str)

def Tabs.step (rx : Rx) (s : Tabs) : TabEv → Tabs
  | .filter p => s.update rx p
  | .click n => if s.hidden n then s else { s with active := n }

def Tabs.run (rx : Rx) (s : Tabs) (es : List TabEv) : Tabs := es.foldl (Tabs.step rx) s

/-- A page as it is loaded: nothing hidden. -/
def Tabs.init (first : Str) : Tabs := ⟨fun _ => false, first⟩

/-- The start with a hash: the filter is applied first (`initButtons`), then the tab is chosen by a click of the script,
which hidden buttons take too (App.js 9–13 and 49–54). -/
def Tabs.load (rx : Rx) (first : Str) (p tab : Str) : Tabs :=
  { (if p = [] then Tabs.init first else (Tabs.init first).update rx p) with active := tab }

/-- C111: on a page loaded without a hash, the button of the tab that is shown is never hidden, and a filter that is an
expression shows every tab that matches and hides every other one but that. -/
theorem C111_tabs (rx : Rx) (first : Str) (es : List TabEv) :
    ((Tabs.init first).run rx es).hidden ((Tabs.init first).run rx es).active = false ∧
    ∀ p test, rx (effective p) = some test → ∀ n,
      (((Tabs.init first).run rx es).step rx (.filter p)).hidden n =
        !(test n || decide (n = ((Tabs.init first).run rx es).active)) := by
  have gen : ∀ (es : List TabEv) (s : Tabs), s.hidden s.active = false → (s.run rx es).hidden (s.run rx es).active = false := by
    intro es
    induction es with
    | nil => intro s h; exact h
    | cons e es ih =>
      intro s h
      refine ih _ ?_
      cases e with
      | filter p =>
        simp only [Tabs.step, Tabs.update]
        split
        · exact h
        · simp [h]
      | click n =>
        simp only [Tabs.step]
        split
        · exact h
        · next hn => simpa using hn
  have h0 := gen es (Tabs.init first) rfl
  refine ⟨h0, fun p test ht n => ?_⟩
  simp only [Tabs.step, Tabs.update, ht]
  by_cases h1 : test n = true
  · simp [h1]
  · by_cases h2 : n = ((Tabs.init first).run rx es).active
    · simp [h1, ← h2, h2 ▸ h0]
    · simp [h1, h2]

/-- C111: opened from a link with a filter that the shown tab does not match, that tab's button is hidden, although it
was visible on the page the link was made on. -/
theorem C111_link_fails (rx : Rx) (first p tab : Str) (test : Str → Bool) (hp : p ≠ []) (hr : rx p = some test)
    (ht : test tab = false) (hf : tab ≠ first) :
    (Tabs.load rx first p tab).hidden tab = true ∧ (Tabs.load rx first p tab).active = tab ∧
    ((Tabs.init first).run rx [.click tab, .filter p]).hidden tab = false ∧
    ((Tabs.init first).run rx [.click tab, .filter p]).active = tab := by
  have he : effective p = p := by unfold effective; rw [if_neg hp]
  refine ⟨?_, rfl, ?_, ?_⟩
  · simp [Tabs.load, hp, Tabs.update, he, hr, ht, Tabs.init, hf]
  · simp [Tabs.run, Tabs.step, Tabs.init, Tabs.update, he, hr]
  · simp [Tabs.run, Tabs.step, Tabs.init, Tabs.update, he, hr]

/-- C111: a tab that was left stays in the list although it does not match, until the next key. -/
theorem C111_left_fails (rx : Rx) (first p n : Str) (test : Str → Bool) (hp : p ≠ []) (hr : rx p = some test)
    (hn : test n = true) (hf : test first = false) :
    ((Tabs.init first).run rx [.filter p, .click n]).hidden first = false ∧
    ((Tabs.init first).run rx [.filter p, .click n]).active = n ∧
    ((Tabs.init first).run rx [.filter p, .click n, .filter p]).hidden first = true := by
  have he : effective p = p := by unfold effective; rw [if_neg hp]
  have hne : first ≠ n := by rintro rfl; rw [hn] at hf; cases hf
  refine ⟨?_, ?_, ?_⟩
  · simp [Tabs.run, Tabs.step, Tabs.init, Tabs.update, he, hr, hn]
  · simp [Tabs.run, Tabs.step, Tabs.init, Tabs.update, he, hr, hn]
  · simp [Tabs.run, Tabs.step, Tabs.init, Tabs.update, he, hr, hn, hf, hne]

/-! ### Cases -/

/-- Expressions without special characters but `(`, which alone is none, and `.*`. -/
def caseRx : Rx := fun p =>
  if p = kAll then some fun _ => true
  else if '(' ∈ p then none
  else some fun n => n.take p.length == p

theorem C111_cases :
    (Filter.init.run caseRx [.char 's', .char 'i', .backspace]).shown "sine".toList = true ∧
    (Filter.init.run caseRx [.char 's', .char 'i', .backspace]).shown "cos".toList = false ∧
    (Filter.init.run caseRx [.char 's', .named "Shift".toList]).shown "sine".toList = false ∧
    (Filter.init.run caseRx [.char 's', .named "Shift".toList, .char 'i']).shown "sine".toList = true ∧
    (Filter.init.run caseRx [.char 's', .char '(']).shown "sine".toList = true ∧
    (Filter.init.run caseRx [.char 's', .char '(']).pattern = "s(".toList ∧
    (Filter.init.run caseRx [.char 's', .enter]).shown "cos".toList = true ∧
    starts caseNum caseRx casePage "ui/sine:filter=s".toList = true ∧
    starts caseNum caseRx casePage "ui/sine:filter=s(".toList = false := by
  decide +kernel

end Verif.Filters
