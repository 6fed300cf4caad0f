import Verif.Server.Pages
/-!
C94: the window's hash, by which a page restores its view after a reload or from a shared link:
`data/js/classes/WindowHashManager.js`.

The page is the list of its tabs with the channels that have a plot check box. A number's text and the
reading of a text as a number (`Number`) are parameters. Setting `location.hash` encodes some
characters, and reading it gives them encoded: the encoding of a character is a parameter. Names are
enumerated in the order they were inserted (names that look like numbers would come first). That
`new RegExp` raises an exception for a filter that is no expression is left out.
-/
set_option linter.unusedSectionVars false

namespace Verif.WindowHash
open Verif.Pages (Str split split_append split_none)

/-- JavaScript's numbers as far as they matter here. -/
structure Num (N : Type) where
  zero : N
  fmt : N → Str
  num : Str → N

/-- The state of a `WindowHashManager`, WindowHashManager.js 2–14. -/
structure View (N : Type) where
  tab : Str
  tabFilter : Str
  tabsShown : Bool
  channelsShown : Bool
  lightMode : Bool
  plot : List (Str × List (Str × Bool))
  filters : List (Str × Str)
  period : N
  deriving DecidableEq

variable {N : Type} [DecidableEq N]

/-- The constructor, 6–13. -/
def View.init (M : Num N) : View N := ⟨[], [], true, true, false, [], [], M.zero⟩

/-- The page: its tabs in order, each with the channels that have a check box. -/
abbrev Page := List (Str × List Str)

/-- `this.plotChannels[tab]`. -/
def View.chans (v : View N) (t : Str) : List (Str × Bool) := (dget v.plot t).getD []

/-- Whether a channel is plotted. -/
def View.plotted (v : View N) (t c : Str) : Bool := (dget (v.chans t) c).getD false

/-- `this.filters[tab]`, empty if there is none. -/
def View.filterOf (v : View N) (t : Str) : Str := (dget v.filters t).getD []

/-! ### Building, 209–266 -/

def kFilter : Str := "filter".toList
def kPeriod : Str := "min-tx-period-ms".toList
def kTabs : Str := "hide-tabs".toList
def kChannels : Str := "hide-channels".toList
def kLight : Str := "light-mode".toList

/-- Lines 238–246 and 253–261: one more item for a tab; the flag is `firstChan`. -/
def addItem (t : Str) (st : Str × Bool) (item : Str) : Str × Bool :=
  let h := if st.2 = true then st.1 ++ '/' :: (t ++ [':']) else st.1
  let h := if h.getLast? = some ':' then h else h ++ [',']
  (h ++ item, false)

/-- Lines 229–263, for one tab. -/
def addTab (v : View N) (h : Str) (t : Str) : Str :=
  let st := (v.chans t).foldl (fun st c => if c.2 = true then addItem t st c.1 else st) (h, true)
  (if v.filterOf t = [] then st else addItem t st (kFilter ++ '=' :: v.filterOf t)).1

/-- Lines 210–227. -/
def buildHead (M : Num N) (v : View N) : Str :=
  let h := v.tab
  let h := if v.tabFilter = [] then h else h ++ ',' :: (kFilter ++ '=' :: v.tabFilter)
  let h := if v.tabsShown = true then h else h ++ ',' :: kTabs
  let h := if v.channelsShown = true then h else h ++ ',' :: kChannels
  let h := if v.lightMode = true then h ++ ',' :: kLight else h
  if v.period = M.zero then h else h ++ ',' :: (kPeriod ++ '=' :: M.fmt v.period)

/-- `buildHash`, 209–266. -/
def build (M : Num N) (page : Page) (v : View N) : Str :=
  (page.map (·.1)).foldl (addTab v) (buildHead M v)

/-! ### Restoring, 147–193 -/

/-- `togglePlotChannel`, 65–70, with the check box's handler (TabInterface.js 266–270): an unknown tab is
an exception, an unknown channel is ignored. -/
def toggle (page : Page) (v : View N) (t c : Str) : View N × Bool :=
  match dget page t with
  | none => (v, true)
  | some chans =>
    if c ∈ chans then
      ({ v with plot := dset v.plot t (dset (v.chans t) c (!v.plotted t c)) }, false)
    else (v, false)

/-- `setTabChannelFilter`, 85–93. -/
def setFilter (page : Page) (v : View N) (t f : Str) : View N × Bool :=
  ({ v with filters := dset v.filters t f }, (dget page t).isNone)

/-- Lines 156–165: one item of a tab. -/
def item (page : Page) (t : Str) (v : View N) (chan : Str) : View N × Bool :=
  if '=' ∈ chan then
    match split '=' chan with
    | [k, x] => if k = kFilter ∧ x ≠ [] then setFilter page v t x else (v, false)
    | _ => (v, false)
  else toggle page v t chan

/-- A loop that ends at the first exception. -/
def loop {α : Type} (f : View N → α → View N × Bool) : View N → List α → View N × Bool
  | v, [] => (v, false)
  | v, a :: as => if (f v a).2 = true then ((f v a).1, true) else loop f (f v a).1 as

/-- Lines 154–166: one part. -/
def part (page : Page) (v : View N) (s : Str) : View N × Bool :=
  match split ':' s with
  | t :: cs :: _ => loop (item page t) v (split ',' cs)
  | _ => (v, true)

/-- Lines 171–181: one item of the first part. -/
def headItem (M : Num N) (v : View N) (s : Str) : View N :=
  if '=' ∈ s then
    match split '=' s with
    | [k, x] =>
      let v := if k = kFilter ∧ x ≠ [] then { v with tabFilter := x } else v
      if k = kPeriod then { v with period := M.num x } else v
    | _ => v
  else v

/-- Lines 170–192. -/
def heads (M : Num N) (v : View N) (items : List Str) : View N :=
  let v := items.foldl (headItem M) v
  let v := if kTabs ∈ items then { v with tabsShown := !v.tabsShown } else v
  let v := if kChannels ∈ items then { v with channelsShown := !v.channelsShown } else v
  if kLight ∈ items then { v with lightMode := !v.lightMode } else v

/-- `initButtons`, 147–193, on a new page; the flag tells of an exception, by which the page does not start
(App.js 49–62). -/
def restore (M : Num N) (page : Page) (orig : Str) : View N × Bool :=
  if orig = [] then (View.init M, false)
  else
    match split '/' orig with
    | [] => (View.init M, false)
    | hd :: parts =>
      let items := split ',' hd
      let r := loop (part page) { View.init M with tab := items.headD [] } parts
      if r.2 = true then r else (heads M r.1 items, false)

/-- A new-window button, 127–143: the state after, and the hash of the new window. -/
def openWindow (M : Num N) (page : Page) (v : View N) (id : Str) : View N × Str :=
  let v1 := { v with tab := id, tabsShown := false }
  ({ v1 with tab := v.tab, tabsShown := true }, build M page v1)

/-- Setting `location.hash` and reading it on a new page: each character by its encoding. -/
def encode (enc : Char → Str) (s : Str) : Str := s.flatMap enc

/-! ### The built text -/

/-- Items with commas between them. -/
def joinC : List Str → Str
  | [] => []
  | [a] => a
  | a :: b :: l => a ++ ',' :: joinC (b :: l)

/-- Parts with a slash before each. -/
def joinS (l : List Str) : Str := l.flatMap fun p => '/' :: p

/-- The items of a tab. -/
def View.items (v : View N) (t : Str) : List Str :=
  ((v.chans t).filter (·.2)).map (·.1) ++ (if v.filterOf t = [] then [] else [kFilter ++ '=' :: v.filterOf t])

/-- The options. -/
def View.opts (M : Num N) (v : View N) : List Str :=
  (if v.tabFilter = [] then [] else [kFilter ++ '=' :: v.tabFilter])
    ++ (if v.tabsShown = true then [] else [kTabs])
    ++ (if v.channelsShown = true then [] else [kChannels])
    ++ (if v.lightMode = true then [kLight] else [])
    ++ (if v.period = M.zero then [] else [kPeriod ++ '=' :: M.fmt v.period])

/-- The parts. -/
def View.parts (v : View N) (ts : List Str) : List Str :=
  (ts.filter fun t => !(v.items t).isEmpty).map fun t => t ++ ':' :: joinC (v.items t)

theorem joinC_snoc (a : Str) (l : List Str) (b : Str) :
    joinC ((a :: l) ++ [b]) = joinC (a :: l) ++ ',' :: b := by
  induction l generalizing a with
  | nil => rfl
  | cons c l ih =>
    have := ih c
    simp only [List.cons_append] at this ⊢
    rw [joinC, this, joinC]
    simp

theorem joinC_cons (a : Str) (l : List Str) : joinC (a :: l) = a ++ (l.flatMap fun x => ',' :: x) := by
  induction l generalizing a with
  | nil => simp [joinC]
  | cons b l ih => rw [joinC, ih b]; simp

theorem buildHead_eq (M : Num N) (v : View N) : buildHead M v = joinC (v.tab :: v.opts M) := by
  rw [joinC_cons]
  unfold buildHead View.opts
  by_cases h1 : v.tabFilter = [] <;> by_cases h2 : v.tabsShown = true <;>
    by_cases h3 : v.channelsShown = true <;> by_cases h4 : v.lightMode = true <;>
    by_cases h5 : v.period = M.zero <;> simp [h1, h2, h3, h4, h5]

/-- An item as it may be written: it does not end in a colon. -/
def ItemOk (s : Str) : Prop := s ≠ [] ∧ s.getLast? ≠ some ':'

/-- What has been written of a tab. -/
def written (h t : Str) (l : List Str) : Str × Bool :=
  if l = [] then (h, true) else (h ++ '/' :: (t ++ ':' :: joinC l), false)

theorem joinC_last {l : List Str} (hl : l ≠ []) (ho : ∀ s ∈ l, ItemOk s) :
    joinC l ≠ [] ∧ (joinC l).getLast? ≠ some ':' := by
  induction l with
  | nil => exact absurd rfl hl
  | cons a l ih =>
    cases l with
    | nil => exact ho a (List.mem_cons_self ..)
    | cons b l =>
      rw [joinC]
      have := ih (by simp) (fun s hs => ho s (List.mem_cons_of_mem _ hs))
      refine ⟨by simp, ?_⟩
      rw [List.getLast?_append, List.getLast?_cons]
      cases h : (joinC (b :: l)).getLast? with
      | none => exact absurd (List.getLast?_eq_none_iff.mp h) this.1
      | some x =>
        rw [h] at this
        simpa using this.2

theorem addItem_written {h t : Str} {l : List Str} (hl : ∀ s ∈ l, ItemOk s) (s : Str) :
    addItem t (written h t l) s = written h t (l ++ [s]) := by
  unfold written
  by_cases e : l = []
  · subst e
    unfold addItem
    have e : (h ++ '/' :: (t ++ [':'])).getLast? = some ':' := by
      have : h ++ '/' :: (t ++ [':']) = (h ++ '/' :: t) ++ [':'] := by simp
      rw [this, List.getLast?_append]
      rfl
    simp only [if_true]
    rw [if_pos e]
    simp [joinC]
  · rw [if_neg e, if_neg (by simp)]
    unfold addItem
    obtain ⟨h1, h2⟩ := joinC_last e hl
    have : ¬ (h ++ '/' :: (t ++ ':' :: joinC l)).getLast? = some ':' := by
      have e' : h ++ '/' :: (t ++ ':' :: joinC l) = (h ++ '/' :: (t ++ [':'])) ++ joinC l := by simp
      rw [e', List.getLast?_append]
      cases h3 : (joinC l).getLast? with
      | none => exact absurd (List.getLast?_eq_none_iff.mp h3) h1
      | some x => rw [h3] at h2; simpa using h2
    simp only [Bool.false_eq_true, if_false]
    rw [if_neg this]
    cases l with
    | nil => exact absurd rfl e
    | cons a l =>
      rw [joinC_snoc]
      simp

theorem addTab_eq (v : View N) (h t : Str) (ho : ∀ s ∈ v.items t, ItemOk s) :
    addTab v h t = h ++ joinS (v.parts [t]) := by
  have key : ∀ (cs : List (Str × Bool)) (l : List Str), (∀ s ∈ l, ItemOk s) →
      (∀ c ∈ cs, c.2 = true → ItemOk c.1) →
      cs.foldl (fun st c => if c.2 = true then addItem t st c.1 else st) (written h t l) =
        written h t (l ++ (cs.filter (·.2)).map (·.1)) := by
    intro cs
    induction cs with
    | nil => intro l _ _; simp
    | cons c cs ih =>
      intro l hl hc
      rw [List.foldl_cons]
      by_cases e : c.2 = true
      · rw [if_pos e, addItem_written hl, ih]
        · rw [List.filter_cons, if_pos e]; simp
        · intro s hs
          rcases List.mem_append.mp hs with h' | h'
          · exact hl s h'
          · rw [List.mem_singleton] at h'
            rw [h']
            exact hc c (List.mem_cons_self ..) e
        · exact fun c' h' => hc c' (List.mem_cons_of_mem _ h')
      · rw [if_neg e, ih l hl (fun c' h' => hc c' (List.mem_cons_of_mem _ h')), List.filter_cons, if_neg e]
  have h0 := key (v.chans t) [] (by simp) (by
    intro c hc e
    apply ho
    unfold View.items
    apply List.mem_append_left
    exact List.mem_map_of_mem (List.mem_filter.mpr ⟨hc, e⟩))
  rw [List.nil_append] at h0
  have hw : written h t [] = (h, true) := rfl
  rw [hw] at h0
  unfold addTab
  rw [h0]
  have hfin : (if v.filterOf t = [] then written h t (((v.chans t).filter (·.2)).map (·.1))
      else addItem t (written h t (((v.chans t).filter (·.2)).map (·.1))) (kFilter ++ '=' :: v.filterOf t)) =
      written h t (v.items t) := by
    unfold View.items
    by_cases e : v.filterOf t = []
    · rw [if_pos e, if_pos e, List.append_nil]
    · rw [if_neg e, if_neg e, addItem_written]
      intro s hs
      apply ho
      unfold View.items
      exact List.mem_append_left _ hs
  show (if v.filterOf t = [] then _ else _ : Str × Bool).1 = _
  rw [hfin]
  unfold written View.parts joinS
  cases e : v.items t with
  | nil => simp [e]
  | cons a l => simp [e]

theorem parts_cons (v : View N) (t : Str) (ts : List Str) :
    v.parts (t :: ts) = v.parts [t] ++ v.parts ts := by
  unfold View.parts
  rw [← List.singleton_append, List.filter_append, List.map_append]

/-- The hash in full. -/
theorem build_eq (M : Num N) (page : Page) (v : View N)
    (ho : ∀ t ∈ page.map (·.1), ∀ s ∈ v.items t, ItemOk s) :
    build M page v = joinC (v.tab :: v.opts M) ++ joinS (v.parts (page.map (·.1))) := by
  unfold build
  rw [← buildHead_eq]
  generalize buildHead M v = h
  generalize page.map (·.1) = ts at ho
  induction ts generalizing h with
  | nil => simp [View.parts, joinS]
  | cons t ts ih =>
    rw [List.foldl_cons, addTab_eq v h t (ho t (List.mem_cons_self ..)),
      ih _ (fun t' h' => ho t' (List.mem_cons_of_mem _ h')), parts_cons v t ts]
    unfold joinS
    simp

/-! ### Reading the text -/

theorem split_joinC {l : List Str} (hl : l ≠ []) (h : ∀ s ∈ l, ',' ∉ s) : split ',' (joinC l) = l := by
  induction l with
  | nil => exact absurd rfl hl
  | cons a l ih =>
    cases l with
    | nil => exact split_none (h a (List.mem_cons_self ..))
    | cons b l =>
      rw [joinC, split_append (h a (List.mem_cons_self ..)), ih (by simp) (fun s hs => h s (List.mem_cons_of_mem _ hs))]

theorem split_joinS {l : List Str} (hd : Str) (hh : '/' ∉ hd) (h : ∀ s ∈ l, '/' ∉ s) :
    split '/' (hd ++ joinS l) = hd :: l := by
  induction l generalizing hd with
  | nil =>
    have : hd ++ joinS [] = hd := by simp [joinS]
    rw [this]; exact split_none hh
  | cons a l ih =>
    have : joinS (a :: l) = '/' :: (a ++ joinS l) := by simp [joinS]
    rw [this, split_append hh, ih a (h a (List.mem_cons_self ..)) (fun s hs => h s (List.mem_cons_of_mem _ hs))]

theorem mem_joinC {l : List Str} {x : Char} (h : x ∈ joinC l) : x = ',' ∨ ∃ s ∈ l, x ∈ s := by
  cases l with
  | nil => cases h
  | cons a l =>
    rw [joinC_cons] at h
    rcases List.mem_append.mp h with h | h
    · exact .inr ⟨a, List.mem_cons_self .., h⟩
    · obtain ⟨s, hs, hx⟩ := List.mem_flatMap.mp h
      rcases List.mem_cons.mp hx with h | h
      · exact .inl h
      · exact .inr ⟨s, List.mem_cons_of_mem _ hs, h⟩

/-- A text without separators. -/
def Clean (s : Str) : Prop := '/' ∉ s ∧ ',' ∉ s ∧ ':' ∉ s ∧ '=' ∉ s

/-- Views whose hashes can be taken apart: no separators in names and filters, plotted channels are on
the page. -/
structure Ok (M : Num N) (page : Page) (v : View N) : Prop where
  tab : Clean v.tab
  filter : Clean v.tabFilter
  period : Clean (M.fmt v.period)
  names : ∀ p ∈ page, Clean p.1
  chans : ∀ p ∈ page, ∀ c ∈ v.chans p.1, c.2 = true → Clean c.1 ∧ c.1 ≠ [] ∧ c.1 ∈ p.2
  keys : ∀ p ∈ page, ((v.chans p.1).map (·.1)).Nodup
  filters : ∀ p ∈ page, Clean (v.filterOf p.1)

theorem clean_nil : Clean [] := by simp [Clean]

theorem clean_last {s : Str} (h : ':' ∉ s) : s.getLast? ≠ some ':' := by
  intro e
  exact h (List.mem_of_getLast? e)

theorem filter_item {f : Str} (h : Clean f) :
    '/' ∉ kFilter ++ '=' :: f ∧ ',' ∉ kFilter ++ '=' :: f ∧ ':' ∉ kFilter ++ '=' :: f := by
  refine ⟨?_, ?_, ?_⟩ <;> intro hm <;> rcases List.mem_append.mp hm with e | e
  · exact absurd e (by decide)
  · rcases List.mem_cons.mp e with e | e
    · exact absurd e (by decide)
    · exact h.1 e
  · exact absurd e (by decide)
  · rcases List.mem_cons.mp e with e | e
    · exact absurd e (by decide)
    · exact h.2.1 e
  · exact absurd e (by decide)
  · rcases List.mem_cons.mp e with e | e
    · exact absurd e (by decide)
    · exact h.2.2.1 e

theorem period_item {f : Str} (h : Clean f) :
    '/' ∉ kPeriod ++ '=' :: f ∧ ',' ∉ kPeriod ++ '=' :: f := by
  refine ⟨?_, ?_⟩ <;> intro hm <;> rcases List.mem_append.mp hm with e | e
  · exact absurd e (by decide)
  · rcases List.mem_cons.mp e with e | e
    · exact absurd e (by decide)
    · exact h.1 e
  · exact absurd e (by decide)
  · rcases List.mem_cons.mp e with e | e
    · exact absurd e (by decide)
    · exact h.2.1 e

theorem items_free {M : Num N} {page : Page} {v : View N} (ok : Ok M page v) {p : Str × List Str} (hp : p ∈ page) :
    ∀ s ∈ v.items p.1, s ≠ [] ∧ '/' ∉ s ∧ ',' ∉ s ∧ ':' ∉ s := by
  intro s hs
  unfold View.items at hs
  rcases List.mem_append.mp hs with h | h
  · obtain ⟨c, hc, rfl⟩ := List.mem_map.mp h
    obtain ⟨hc1, hc2⟩ := List.mem_filter.mp hc
    obtain ⟨h1, h2, -⟩ := ok.chans p hp c hc1 hc2
    exact ⟨h2, h1.1, h1.2.1, h1.2.2.1⟩
  · by_cases e : v.filterOf p.1 = []
    · rw [if_pos e] at h; cases h
    · rw [if_neg e, List.mem_singleton] at h
      subst h
      exact ⟨by simp, filter_item (ok.filters p hp)⟩

theorem opts_free {M : Num N} {page : Page} {v : View N} (ok : Ok M page v) :
    ∀ s ∈ v.tab :: v.opts M, '/' ∉ s ∧ ',' ∉ s := by
  intro s hs
  rcases List.mem_cons.mp hs with rfl | hs
  · exact ⟨ok.tab.1, ok.tab.2.1⟩
  · unfold View.opts at hs
    simp only [List.mem_append] at hs
    rcases hs with (((h | h) | h) | h) | h <;> split at h
    all_goals first
      | (cases h; done)
      | (rw [List.mem_singleton] at h; subst h)
    · exact ⟨(filter_item ok.filter).1, (filter_item ok.filter).2.1⟩
    · exact ⟨by decide, by decide⟩
    · exact ⟨by decide, by decide⟩
    · exact ⟨by decide, by decide⟩
    · exact period_item ok.period

theorem parts_free {M : Num N} {page : Page} {v : View N} (ok : Ok M page v) :
    ∀ s ∈ v.parts (page.map (·.1)), '/' ∉ s := by
  intro s hs hm
  unfold View.parts at hs
  obtain ⟨t, ht, rfl⟩ := List.mem_map.mp hs
  obtain ⟨p, hp, rfl⟩ := List.mem_map.mp (List.mem_filter.mp ht).1
  rcases List.mem_append.mp hm with h | h
  · exact (ok.names p hp).1 h
  · rcases List.mem_cons.mp h with h | h
    · exact absurd h (by decide)
    · rcases mem_joinC h with h | ⟨s, hs, hx⟩
      · exact absurd h (by decide)
      · exact (items_free ok hp s hs).2.1 hx

/-- The pieces into which the hash is taken apart. -/
theorem split_build {M : Num N} {page : Page} {v : View N} (ok : Ok M page v) :
    split '/' (build M page v) = joinC (v.tab :: v.opts M) :: v.parts (page.map (·.1)) ∧
    split ',' (joinC (v.tab :: v.opts M)) = v.tab :: v.opts M := by
  constructor
  · rw [build_eq]
    · apply split_joinS _ _ (parts_free ok)
      intro h
      rcases mem_joinC h with h | ⟨s, hs, hx⟩
      · exact absurd h (by decide)
      · exact (opts_free ok s hs).1 hx
    · intro t ht s hs
      obtain ⟨p, hp, rfl⟩ := List.mem_map.mp ht
      have := items_free ok hp s hs
      exact ⟨this.1, clean_last this.2.2.2⟩
  · exact split_joinC (by simp) (fun s hs => (opts_free ok s hs).2)

/-! ### The parts -/

theorem item_plain {page : Page} {t : Str} {v : View N} {c : Str} (h : '=' ∉ c) :
    item page t v c = toggle page v t c := by
  unfold item; rw [if_neg h]

theorem split_kv {k f : Str} (hk : '=' ∉ k) (hf : '=' ∉ f) : split '=' (k ++ '=' :: f) = [k, f] := by
  rw [split_append hk, split_none hf]

theorem item_filter {page : Page} {t : Str} {v : View N} {f : Str} (h : '=' ∉ f) (hf : f ≠ []) :
    item page t v (kFilter ++ '=' :: f) = setFilter page v t f := by
  unfold item
  rw [if_pos (by simp), split_kv (by decide) h]
  show (if kFilter = kFilter ∧ f ≠ [] then _ else _) = _
  rw [if_pos ⟨rfl, hf⟩]

theorem plotted_toggle {v : View N} {t c : Str} {b : Bool} (t' c' : Str) :
    View.plotted { v with plot := dset v.plot t (dset (v.chans t) c b) } t' c' =
      if t' = t ∧ c' = c then b else v.plotted t' c' := by
  unfold View.plotted View.chans
  simp only [dget_dset]
  by_cases ht : t = t'
  · subst ht
    simp only [if_true, Option.getD_some, dget_dset, true_and]
    by_cases hc : c = c'
    · subst hc; simp
    · have : ¬ c' = c := fun e => hc e.symm
      simp [hc, this]
  · have : ¬ t' = t := fun e => ht e.symm
    simp [ht, this]

/-- Two views agree but for what is plotted and the filters. -/
def Same (v w : View N) : Prop :=
  v.tab = w.tab ∧ v.tabFilter = w.tabFilter ∧ v.tabsShown = w.tabsShown ∧ v.channelsShown = w.channelsShown ∧
    v.lightMode = w.lightMode ∧ v.period = w.period

theorem Same.refl (v : View N) : Same v v := ⟨rfl, rfl, rfl, rfl, rfl, rfl⟩

theorem Same.trans {u v w : View N} (h : Same u v) (h' : Same v w) : Same u w :=
  ⟨h.1.trans h'.1, h.2.1.trans h'.2.1, h.2.2.1.trans h'.2.2.1, h.2.2.2.1.trans h'.2.2.2.1,
    h.2.2.2.2.1.trans h'.2.2.2.2.1, h.2.2.2.2.2.trans h'.2.2.2.2.2⟩

theorem toggles {page : Page} {t : Str} {chans : List Str} (hp : dget page t = some chans) (rest : List Str) :
    ∀ (cs : List Str) (v : View N), cs.Nodup → (∀ c ∈ cs, c ∈ chans ∧ '=' ∉ c) →
    ∃ w, loop (item page t) v (cs ++ rest) = loop (item page t) w rest ∧
      (∀ t' c', w.plotted t' c' = (v.plotted t' c' != decide (t' = t ∧ c' ∈ cs))) ∧
      w.filters = v.filters ∧ Same w v := by
  intro cs
  induction cs with
  | nil => intro v _ _; exact ⟨v, rfl, by simp, rfl, Same.refl v⟩
  | cons c cs ih =>
    intro v hnd hc
    obtain ⟨hc1, hc2⟩ := hc c (List.mem_cons_self ..)
    rw [List.nodup_cons] at hnd
    obtain ⟨w, h1, h2, h3, h4⟩ := ih { v with plot := dset v.plot t (dset (v.chans t) c (!v.plotted t c)) } hnd.2
      (fun c' h' => hc c' (List.mem_cons_of_mem _ h'))
    refine ⟨w, ?_, ?_, h3, h4⟩
    · rw [List.cons_append, loop, item_plain hc2]
      unfold toggle
      rw [hp]
      simp only [if_pos hc1, Bool.false_eq_true, if_false]
      exact h1
    · intro t' c'
      rw [h2, plotted_toggle]
      by_cases ht : t' = t
      · subst ht
        by_cases hcc : c' = c
        · subst hcc; simp [hnd.1]
        · simp [hcc]
      · simp [ht]

theorem filtered {page : Page} {t : Str} {chans : List Str} (hp : dget page t = some chans) {f : Str} (hf : '=' ∉ f)
    (v : View N) :
    ∃ w, loop (item page t) v (if f = [] then [] else [kFilter ++ '=' :: f]) = (w, false) ∧
      (∀ t', w.filterOf t' = if t' = t ∧ f ≠ [] then f else v.filterOf t') ∧ w.plot = v.plot ∧ Same w v := by
  by_cases e : f = []
  · refine ⟨v, by rw [if_pos e]; rfl, by simp [e], rfl, Same.refl v⟩
  · refine ⟨{ v with filters := dset v.filters t f }, ?_, ?_, rfl, ⟨rfl, rfl, rfl, rfl, rfl, rfl⟩⟩
    · rw [if_neg e, loop, item_filter hf e]
      unfold setFilter
      simp only [hp, Option.isNone_some, Bool.false_eq_true, if_false]
      rfl
    · intro t'
      unfold View.filterOf
      simp only [dget_dset]
      by_cases ht : t = t'
      · subst ht; simp [e]
      · have : ¬ t' = t := fun h => ht h.symm
        simp [ht, this]

theorem loop_append {α : Type} (f : View N → α → View N × Bool) (l1 l2 : List α) (v w : View N)
    (h : loop f v l1 = (w, false)) : loop f v (l1 ++ l2) = loop f w l2 := by
  induction l1 generalizing v with
  | nil => cases h; rfl
  | cons a l1 ih =>
    rw [loop] at h
    rw [List.cons_append, loop]
    by_cases e : (f v a).2 = true
    · rw [if_pos e] at h; cases h
    · rw [if_neg e] at h ⊢
      exact ih _ h

theorem dget_page {page : Page} (hn : (page.map (·.1)).Nodup) {p : Str × List Str} (hp : p ∈ page) :
    dget page p.1 = some p.2 := Verif.Pages.dget_of_mem page hn p hp

theorem mem_plotted {l : List (Str × Bool)} (hn : (l.map (·.1)).Nodup) (c : Str) :
    c ∈ (l.filter (·.2)).map (·.1) ↔ (dget l c).getD false = true := by
  constructor
  · intro h
    obtain ⟨p, hp, rfl⟩ := List.mem_map.mp h
    obtain ⟨h1, h2⟩ := List.mem_filter.mp hp
    rw [Verif.Pages.dget_of_mem l hn p h1]
    exact h2
  · intro h
    cases e : dget l c with
    | none => rw [e] at h; cases h
    | some b =>
      rw [e] at h
      have hb : b = true := h
      subst hb
      exact List.mem_map.mpr ⟨(c, true), List.mem_filter.mpr ⟨dget_mem e, rfl⟩, rfl⟩

theorem one_part {M : Num N} {page : Page} {v : View N} (ok : Ok M page v) (hn : (page.map (·.1)).Nodup)
    {p : Str × List Str} (hp : p ∈ page) (u : View N) :
    ∃ w, loop (part page) u (v.parts [p.1]) = (w, false) ∧
      (∀ t' c', w.plotted t' c' = (u.plotted t' c' != (decide (t' = p.1) && v.plotted p.1 c'))) ∧
      (∀ t', w.filterOf t' = if t' = p.1 ∧ v.filterOf p.1 ≠ [] then v.filterOf p.1 else u.filterOf t') ∧
      Same w u := by
  have hd := dget_page hn hp
  have hnd := ok.keys p hp
  obtain ⟨w1, a1, a2, a3, a4⟩ := toggles (N := N) hd (if v.filterOf p.1 = [] then [] else [kFilter ++ '=' :: v.filterOf p.1])
    (((v.chans p.1).filter (·.2)).map (·.1)) u
    (List.Nodup.sublist (List.Sublist.map _ List.filter_sublist) hnd)
    (by
      intro c hc
      obtain ⟨q, hq, rfl⟩ := List.mem_map.mp hc
      obtain ⟨h1, h2⟩ := List.mem_filter.mp hq
      have := ok.chans p hp q h1 h2
      exact ⟨this.2.2, this.1.2.2.2⟩)
  obtain ⟨w2, b1, b2, b3, b4⟩ := filtered (N := N) hd (ok.filters p hp).2.2.2 w1
  have hpl : ∀ t' c', w2.plotted t' c' = (u.plotted t' c' != (decide (t' = p.1) && v.plotted p.1 c')) := by
    intro t' c'
    have e : w2.plotted t' c' = w1.plotted t' c' := by unfold View.plotted View.chans; rw [b3]
    rw [e, a2]
    congr 1
    have := mem_plotted hnd c'
    unfold View.plotted
    by_cases ht : t' = p.1
    · by_cases hm : c' ∈ ((v.chans p.1).filter (·.2)).map (·.1)
      · rw [this.mp hm]; simp only [ht, hm, and_self, decide_true, Bool.and_self]
      · have h2 : (dget (v.chans p.1) c').getD false = false := by
          cases hh : (dget (v.chans p.1) c').getD false with
          | false => rfl
          | true => exact absurd (this.mpr hh) hm
        rw [h2]; simp only [ht, hm, and_false, decide_false, Bool.and_false]
    · simp only [ht, false_and, decide_false, Bool.false_and]
  have hfl : ∀ t', w2.filterOf t' = if t' = p.1 ∧ v.filterOf p.1 ≠ [] then v.filterOf p.1 else u.filterOf t' := by
    intro t'
    rw [b2]
    have e : w1.filterOf t' = u.filterOf t' := by unfold View.filterOf; rw [a3]
    rw [e]
  refine ⟨w2, ?_, hpl, hfl, b4.trans a4⟩
  have hl : loop (item page p.1) u (v.items p.1) = (w2, false) := by
    unfold View.items
    rw [a1]; exact b1
  cases e : v.items p.1 with
  | nil =>
    rw [e] at hl
    have : v.parts [p.1] = [] := by simp [View.parts, e]
    rw [this]
    exact hl
  | cons a l =>
    have : v.parts [p.1] = [p.1 ++ ':' :: joinC (v.items p.1)] := by simp [View.parts, e]
    have hpart : part page u (p.1 ++ ':' :: joinC (v.items p.1)) = (w2, false) := by
      unfold part
      rw [split_append (ok.names p hp).2.2.1]
      have hns : ':' ∉ joinC (v.items p.1) := by
        intro h
        rcases mem_joinC h with h | ⟨s, hs, hx⟩
        · exact absurd h (by decide)
        · exact (items_free ok hp s hs).2.2.2 hx
      rw [split_none hns]
      show loop (item page p.1) u (split ',' (joinC (v.items p.1))) = _
      rw [split_joinC (by rw [e]; simp) (fun s hs => (items_free ok hp s hs).2.2.1)]
      exact hl
    rw [this, loop, hpart]
    rfl

theorem all_parts {M : Num N} {page : Page} {v : View N} (ok : Ok M page v) (hn : (page.map (·.1)).Nodup) :
    ∀ (l : Page), (∀ p ∈ l, p ∈ page) → (l.map (·.1)).Nodup → ∀ u : View N,
    ∃ w, loop (part page) u (v.parts (l.map (·.1))) = (w, false) ∧
      (∀ t' c', w.plotted t' c' = (u.plotted t' c' != (decide (t' ∈ l.map (·.1)) && v.plotted t' c'))) ∧
      (∀ t', w.filterOf t' = if t' ∈ l.map (·.1) ∧ v.filterOf t' ≠ [] then v.filterOf t' else u.filterOf t') ∧
      Same w u := by
  intro l
  induction l with
  | nil => intro _ _ u; exact ⟨u, rfl, by simp, by simp, Same.refl u⟩
  | cons p l ih =>
    intro hl hnd u
    rw [List.map_cons, List.nodup_cons] at hnd
    obtain ⟨w1, a1, a2, a3, a4⟩ := one_part ok hn (hl p (List.mem_cons_self ..)) u
    obtain ⟨w2, b1, b2, b3, b4⟩ := ih (fun q hq => hl q (List.mem_cons_of_mem _ hq)) hnd.2 w1
    refine ⟨w2, ?_, ?_, ?_, b4.trans a4⟩
    · rw [List.map_cons, parts_cons, loop_append _ _ _ _ _ a1, b1]
    · intro t' c'
      rw [b2, a2]
      by_cases e : t' = p.1
      · subst e
        simp only [hnd.1, decide_false, Bool.false_and, Bool.bne_false, decide_true, Bool.true_and, List.map_cons,
          List.mem_cons, true_or]
      · simp only [e, decide_false, Bool.false_and, Bool.bne_false, List.map_cons, List.mem_cons, false_or]
    · intro t'
      rw [b3, a3]
      by_cases e : t' = p.1
      · subst e
        simp only [hnd.1, false_and, if_false, true_and, List.map_cons, List.mem_cons, true_or]
      · simp only [e, false_and, if_false, List.map_cons, List.mem_cons, false_or]

/-! ### The options -/

theorem head_plain (M : Num N) (v : View N) {s : Str} (h : '=' ∉ s) : headItem M v s = v := by
  unfold headItem; rw [if_neg h]

theorem head_filter (M : Num N) (v : View N) {f : Str} (h : '=' ∉ f) (hf : f ≠ []) :
    headItem M v (kFilter ++ '=' :: f) = { v with tabFilter := f } := by
  unfold headItem
  rw [if_pos (by simp), split_kv (by decide) h]
  have : ¬ kFilter = kPeriod := by decide
  simp only [this, if_false, hf, ne_eq, not_false_eq_true, and_self, if_true]

theorem head_period (M : Num N) (v : View N) {f : Str} (h : '=' ∉ f) :
    headItem M v (kPeriod ++ '=' :: f) = { v with period := M.num f } := by
  unfold headItem
  rw [if_pos (by simp), split_kv (by decide) h]
  have : ¬ kPeriod = kFilter := by decide
  simp only [this, if_false, false_and, if_true]

theorem not_opt {k f x : Str} (hx : '=' ∉ x) : ¬ x = k ++ '=' :: f := by
  intro e
  apply hx
  rw [e]
  simp

theorem mem_opts {M : Num N} {v : View N} {x : Str} (hx : '=' ∉ x) :
    x ∈ v.opts M ↔ (v.tabsShown = false ∧ x = kTabs) ∨ (v.channelsShown = false ∧ x = kChannels) ∨
      (v.lightMode = true ∧ x = kLight) := by
  unfold View.opts
  by_cases h1 : v.tabFilter = [] <;> by_cases h2 : v.tabsShown = true <;>
    by_cases h3 : v.channelsShown = true <;> by_cases h4 : v.lightMode = true <;>
    by_cases h5 : v.period = M.zero <;>
    simp [h1, h2, h3, h4, h5, not_opt hx]

theorem fold_opts {M : Num N} (hnum : ∀ x, M.num (M.fmt x) = x) {v : View N} (h1 : '=' ∉ v.tabFilter)
    (h2 : '=' ∉ M.fmt v.period) (h3 : '=' ∉ v.tab) (u : View N) (hu : u.tabFilter = []) (hz : u.period = M.zero) :
    (v.tab :: v.opts M).foldl (headItem M) u = { u with tabFilter := v.tabFilter, period := v.period } := by
  have e1 : '=' ∉ kTabs := by decide
  have e2 : '=' ∉ kChannels := by decide
  have e3 : '=' ∉ kLight := by decide
  obtain ⟨a, b, c, d, e, f, g, h⟩ := u
  simp only at hu hz
  subst hu hz
  unfold View.opts
  simp only [List.foldl_cons, List.foldl_append, head_plain M _ h3]
  by_cases hf : v.tabFilter = [] <;> by_cases ht : v.tabsShown = true <;>
    by_cases hc : v.channelsShown = true <;> by_cases hl : v.lightMode = true <;>
    by_cases hp : v.period = M.zero <;>
    simp [hf, ht, hc, hl, hp, head_plain M _ e1, head_plain M _ e2, head_plain M _ e3, head_filter M _ h1,
      head_period M _ h2, hnum]

/-- The shown tab is not named like an option. -/
def TabName (v : View N) : Prop := v.tab ≠ kTabs ∧ v.tab ≠ kChannels ∧ v.tab ≠ kLight

/-- Before any encoding. -/
theorem restore_build {M : Num N} (hnum : ∀ x, M.num (M.fmt x) = x) (page : Page)
    (hn : (page.map (·.1)).Nodup) (v : View N) (ok : Ok M page v) (htn : TabName v) :
    ∃ w, restore M page (build M page v) = (w, false) ∧ Same w v ∧
      ∀ t ∈ page.map (·.1), w.filterOf t = v.filterOf t ∧ ∀ c, w.plotted t c = v.plotted t c := by
  obtain ⟨s1, s2⟩ := split_build ok
  obtain ⟨w, a1, a2, a3, a4⟩ := all_parts ok hn page (fun _ h => h) hn { View.init M with tab := v.tab }
  have hfin : ∀ t ∈ page.map (·.1), w.filterOf t = v.filterOf t ∧ ∀ c, w.plotted t c = v.plotted t c := by
    intro t ht
    constructor
    · rw [a3]
      by_cases e : v.filterOf t = []
      · simp only [e, ne_eq, not_true, and_false, if_false]
        rfl
      · simp only [ht, e, ne_eq, not_false_eq_true, and_self, if_true]
    · intro c
      rw [a2]
      have : View.plotted { View.init M with tab := v.tab } t c = false := rfl
      rw [this]
      simp [ht]
  have hk : ∀ x : Str, x ∈ v.tab :: v.opts M → x ≠ v.tab → x ∈ v.opts M := by
    intro x hx hne
    rcases List.mem_cons.mp hx with e | e
    · exact absurd e hne
    · exact e
  have mT : kTabs ∈ v.tab :: v.opts M ↔ v.tabsShown = false := by
    rw [List.mem_cons, mem_opts (by decide)]
    have d1 : ¬ kTabs = kChannels := by decide
    have d2 : ¬ kTabs = kLight := by decide
    have d3 : ¬ kTabs = v.tab := fun e => htn.1 e.symm
    simp only [d1, d2, d3, and_false, or_false, false_or, and_true]
  have mC : kChannels ∈ v.tab :: v.opts M ↔ v.channelsShown = false := by
    rw [List.mem_cons, mem_opts (by decide)]
    have d1 : ¬ kChannels = kTabs := by decide
    have d2 : ¬ kChannels = kLight := by decide
    have d3 : ¬ kChannels = v.tab := fun e => htn.2.1 e.symm
    simp only [d1, d2, d3, and_false, or_false, false_or, and_true]
  have mL : kLight ∈ v.tab :: v.opts M ↔ v.lightMode = true := by
    rw [List.mem_cons, mem_opts (by decide)]
    have d1 : ¬ kLight = kTabs := by decide
    have d2 : ¬ kLight = kChannels := by decide
    have d3 : ¬ kLight = v.tab := fun e => htn.2.2 e.symm
    simp only [d1, d2, d3, and_false, false_or, and_true]
  obtain ⟨b1, b2, b3, b4, b5, b6⟩ := a4
  by_cases he : build M page v = []
  · rw [he] at s1
    have s1' : split '/' ([] : Str) = [[]] := rfl
    rw [s1'] at s1
    have e1 := (List.cons.inj s1).1
    have e2 := (List.cons.inj s1).2
    have e3 : v.tab = [] ∧ v.opts M = [] := by
      rw [joinC_cons] at e1
      have := List.append_eq_nil_iff.mp e1.symm
      refine ⟨this.1, ?_⟩
      cases ho : v.opts M with
      | nil => rfl
      | cons a l => rw [ho] at this; simp at this
    rw [← e2] at a1
    have hw : w = { View.init M with tab := v.tab } := ((Prod.mk.inj a1).1).symm
    rw [e3.1] at hw
    have hw' : w = View.init M := hw
    refine ⟨w, ?_, ?_, hfin⟩
    · unfold restore
      rw [if_pos he, hw']
    · rw [hw']
      have h0 := e3.2
      unfold View.opts at h0
      simp only [List.append_eq_nil_iff] at h0
      obtain ⟨⟨⟨⟨g1, g2⟩, g3⟩, g4⟩, g5⟩ := h0
      refine ⟨e3.1.symm, ?_, ?_, ?_, ?_, ?_⟩
      · by_cases h : v.tabFilter = []
        · exact h.symm
        · rw [if_neg h] at g1; cases g1
      · by_cases h : v.tabsShown = true
        · exact h.symm
        · rw [if_neg h] at g2; cases g2
      · by_cases h : v.channelsShown = true
        · exact h.symm
        · rw [if_neg h] at g3; cases g3
      · by_cases h : v.lightMode = true
        · rw [if_pos h] at g4; cases g4
        · simp only [Bool.not_eq_true] at h; exact h.symm
      · by_cases h : v.period = M.zero
        · exact h.symm
        · rw [if_neg h] at g5; cases g5
  · refine ⟨heads M w (v.tab :: v.opts M), ?_, ?_, ?_⟩
    · unfold restore
      rw [if_neg he, s1]
      simp only [s2, List.headD_cons]
      rw [a1]
      rfl
    · unfold heads
      rw [fold_opts hnum ok.filter.2.2.2 ok.period.2.2.2 ok.tab.2.2.2 w b2 b6]
      refine ⟨?_, ?_, ?_, ?_, ?_, ?_⟩
      all_goals
        simp only [mT, mC, mL]
        cases hT : v.tabsShown <;> cases hC : v.channelsShown <;> cases hL : v.lightMode <;>
          simp [b1, b3, b4, b5, View.init]
    · intro t ht
      have hh : (heads M w (v.tab :: v.opts M)).filters = w.filters ∧ (heads M w (v.tab :: v.opts M)).plot = w.plot := by
        unfold heads
        rw [fold_opts hnum ok.filter.2.2.2 ok.period.2.2.2 ok.tab.2.2.2 w b2 b6]
        constructor
        all_goals
          simp only [mT, mC, mL]
          cases hT : v.tabsShown <;> cases hC : v.channelsShown <;> cases hL : v.lightMode <;> simp
      have := hfin t ht
      unfold View.filterOf View.plotted View.chans at this ⊢
      rw [hh.1, hh.2]
      exact this

/-! ### Encoding -/

theorem encode_append (enc : Char → Str) (a b : Str) : encode enc (a ++ b) = encode enc a ++ encode enc b := by
  simp [encode]

theorem encode_plain {enc : Char → Str} {s : Str} (h : ∀ c ∈ s, enc c = [c]) : encode enc s = s := by
  unfold encode
  induction s with
  | nil => rfl
  | cons a s ih =>
    rw [List.flatMap_cons, h a (List.mem_cons_self ..), ih (fun c hc => h c (List.mem_cons_of_mem _ hc))]
    rfl

/-- The characters `buildHash` writes itself. -/
def own : Str := "/,:=".toList ++ kFilter ++ kPeriod ++ kTabs ++ kChannels ++ kLight

/-- Names and filters (but that of the tabs) have no characters to encode. -/
structure Plain (M : Num N) (enc : Char → Str) (page : Page) (v : View N) : Prop where
  own : ∀ c ∈ own, enc c = [c]
  tab : ∀ c ∈ v.tab, enc c = [c]
  period : ∀ c ∈ M.fmt v.period, enc c = [c]
  names : ∀ p ∈ page, ∀ c ∈ p.1, enc c = [c]
  chans : ∀ p ∈ page, ∀ x ∈ v.chans p.1, x.2 = true → ∀ c ∈ x.1, enc c = [c]
  filters : ∀ p ∈ page, ∀ c ∈ v.filterOf p.1, enc c = [c]

theorem encode_joinC {enc : Char → Str} (h : enc ',' = [',']) (l : List Str) :
    encode enc (joinC l) = joinC (l.map (encode enc)) := by
  cases l with
  | nil => rfl
  | cons a l =>
    rw [List.map_cons, joinC_cons, joinC_cons, encode_append]
    congr 1
    induction l with
    | nil => rfl
    | cons b l ih =>
      rw [List.flatMap_cons, encode_append, ih, List.map_cons, List.flatMap_cons]
      congr 1
      show encode enc ([','] ++ b) = _
      rw [encode_append]
      show enc ',' ++ [] ++ _ = _
      rw [h]
      rfl

theorem own_sub {x : Char} (h : x ∈ kFilter ∨ x ∈ kPeriod ∨ x ∈ kTabs ∨ x ∈ kChannels ∨ x ∈ kLight ∨ x = '=' ∨
    x = ',' ∨ x = ':' ∨ x = '/') : x ∈ own := by
  unfold own
  simp only [List.mem_append]
  rcases h with h | h | h | h | h | h | h | h | h
  · exact .inl (.inl (.inl (.inl (.inr h))))
  · exact .inl (.inl (.inl (.inr h)))
  · exact .inl (.inl (.inr h))
  · exact .inl (.inr h)
  · exact .inr h
  all_goals subst h; exact .inl (.inl (.inl (.inl (.inl (by decide)))))

theorem plain_filter {enc : Char → Str} (h : ∀ c ∈ own, enc c = [c]) (f : Str) :
    encode enc (kFilter ++ '=' :: f) = kFilter ++ '=' :: encode enc f := by
  have e : kFilter ++ '=' :: f = (kFilter ++ ['=']) ++ f := by simp
  rw [e, encode_append, encode_plain]
  · simp
  · intro c hc
    apply h
    apply own_sub
    rcases List.mem_append.mp hc with hc | hc
    · exact .inl hc
    · rw [List.mem_singleton] at hc
      exact .inr (.inr (.inr (.inr (.inr (.inl hc)))))

theorem plain_period {enc : Char → Str} (h : ∀ c ∈ own, enc c = [c]) (f : Str) :
    encode enc (kPeriod ++ '=' :: f) = kPeriod ++ '=' :: encode enc f := by
  have e : kPeriod ++ '=' :: f = (kPeriod ++ ['=']) ++ f := by simp
  rw [e, encode_append, encode_plain]
  · simp
  · intro c hc
    apply h
    apply own_sub
    rcases List.mem_append.mp hc with hc | hc
    · exact .inr (.inl hc)
    · rw [List.mem_singleton] at hc
      exact .inr (.inr (.inr (.inr (.inr (.inl hc)))))

theorem encode_parts {M : Num N} {enc : Char → Str} {page : Page} {v : View N} (hp : Plain M enc page v) :
    encode enc (joinS (v.parts (page.map (·.1)))) = joinS (v.parts (page.map (·.1))) := by
  apply encode_plain
  intro c hc
  unfold joinS View.parts at hc
  obtain ⟨s, hs, hx⟩ := List.mem_flatMap.mp hc
  rcases List.mem_cons.mp hx with hx | hx
  · exact hp.own c (own_sub (by simp [hx]))
  · obtain ⟨t, ht, rfl⟩ := List.mem_map.mp hs
    obtain ⟨p, hpm, rfl⟩ := List.mem_map.mp (List.mem_filter.mp ht).1
    rcases List.mem_append.mp hx with hx | hx
    · exact hp.names p hpm c hx
    · rcases List.mem_cons.mp hx with hx | hx
      · exact hp.own c (own_sub (by simp [hx]))
      · rcases mem_joinC hx with hx | ⟨s, hs, hx⟩
        · exact hp.own c (own_sub (by simp [hx]))
        · unfold View.items at hs
          rcases List.mem_append.mp hs with hs | hs
          · obtain ⟨q, hq, rfl⟩ := List.mem_map.mp hs
            obtain ⟨h1, h2⟩ := List.mem_filter.mp hq
            exact hp.chans p hpm q h1 h2 c hx
          · by_cases e : v.filterOf p.1 = []
            · rw [if_pos e] at hs; cases hs
            · rw [if_neg e, List.mem_singleton] at hs
              subst hs
              rcases List.mem_append.mp hx with hx | hx
              · exact hp.own c (own_sub (.inl hx))
              · rcases List.mem_cons.mp hx with hx | hx
                · exact hp.own c (own_sub (by simp [hx]))
                · exact hp.filters p hpm c hx

/-- The encoded hash is that of the view with an encoded filter of the tabs. -/
theorem encode_build {M : Num N} {enc : Char → Str} (hne : ∀ c, enc c ≠ []) {page : Page} {v : View N}
    (ok : Ok M page v) (hp : Plain M enc page v) :
    encode enc (build M page v) = build M page { v with tabFilter := encode enc v.tabFilter } := by
  have hi : ∀ t ∈ page.map (·.1), ∀ s ∈ v.items t, ItemOk s := by
    intro t ht s hs
    obtain ⟨p, hp, rfl⟩ := List.mem_map.mp ht
    have := items_free ok hp s hs
    exact ⟨this.1, clean_last this.2.2.2⟩
  have hnil : encode enc v.tabFilter = [] ↔ v.tabFilter = [] := by
    constructor
    · intro h
      cases hf : v.tabFilter with
      | nil => rfl
      | cons a l =>
        rw [hf] at h
        unfold encode at h
        rw [List.flatMap_cons] at h
        exact absurd (List.append_eq_nil_iff.mp h).1 (hne a)
    · intro h; rw [h]; rfl
  rw [build_eq M page v hi, encode_append, encode_parts hp, encode_joinC (hp.own ',' (by decide)),
    build_eq M page { v with tabFilter := encode enc v.tabFilter } hi]
  congr 2
  rw [List.map_cons, encode_plain hp.tab]
  congr 1
  have e0 : encode enc [] = [] := rfl
  have e1 : encode enc kTabs = kTabs := encode_plain fun c hc => hp.own c (own_sub (.inr (.inr (.inl hc))))
  have e2 : encode enc kChannels = kChannels :=
    encode_plain fun c hc => hp.own c (own_sub (.inr (.inr (.inr (.inl hc)))))
  have e3 : encode enc kLight = kLight :=
    encode_plain fun c hc => hp.own c (own_sub (.inr (.inr (.inr (.inr (.inl hc))))))
  have e4 := plain_period hp.own (M.fmt v.period)
  rw [encode_plain hp.period] at e4
  unfold View.opts
  by_cases h1 : v.tabFilter = [] <;> by_cases h2 : v.tabsShown = true <;>
    by_cases h3 : v.channelsShown = true <;> by_cases h4 : v.lightMode = true <;>
    by_cases h5 : v.period = M.zero <;>
    simp [h1, h2, h3, h4, h5, e1, e2, e3, e4, plain_filter hp.own, hnil, e0]

/-- C94: the hash restores the view: the shown tab, the filters, what is shown and hidden, the
theme, the period and the plotted channels, if no name or filter has a separator or a character to
encode in it and the shown tab is not named like an option. -/
theorem C94_restores_partial {M : Num N} (hnum : ∀ x, M.num (M.fmt x) = x) (enc : Char → Str)
    (hne : ∀ c, enc c ≠ []) (page : Page)
    (hn : (page.map (·.1)).Nodup) (v : View N) (ok : Ok M page v) (htn : TabName v) (hp : Plain M enc page v)
    (hf : ∀ c ∈ v.tabFilter, enc c = [c]) :
    ∃ w, restore M page (encode enc (build M page v)) = (w, false) ∧
      w.tab = v.tab ∧ w.tabFilter = v.tabFilter ∧ w.tabsShown = v.tabsShown ∧
      w.channelsShown = v.channelsShown ∧ w.lightMode = v.lightMode ∧ w.period = v.period ∧
      ∀ t ∈ page.map (·.1), w.filterOf t = v.filterOf t ∧ ∀ c, w.plotted t c = v.plotted t c := by
  rw [encode_build hne ok hp, encode_plain hf]
  obtain ⟨w, h1, ⟨a, b, c, d, e, f⟩, h3⟩ := restore_build hnum page hn v ok htn
  exact ⟨w, h1, a, b, c, d, e, f, h3⟩

/-- C94 fails for a filter with a character to encode, such as a blank: the page gets the encoded text
as its filter. -/
theorem C94_encoded_fails {M : Num N} (hnum : ∀ x, M.num (M.fmt x) = x) (enc : Char → Str)
    (hne : ∀ c, enc c ≠ []) (page : Page)
    (hn : (page.map (·.1)).Nodup) (v : View N) (ok : Ok M page v) (htn : TabName v) (hp : Plain M enc page v)
    (hc : Clean (encode enc v.tabFilter)) (hf : encode enc v.tabFilter ≠ v.tabFilter) :
    ∃ w, restore M page (encode enc (build M page v)) = (w, false) ∧
      w.tabFilter = encode enc v.tabFilter ∧ w.tabFilter ≠ v.tabFilter := by
  rw [encode_build hne ok hp]
  have ok' : Ok M page { v with tabFilter := encode enc v.tabFilter } :=
    ⟨ok.tab, hc, ok.period, ok.names, ok.chans, ok.keys, ok.filters⟩
  obtain ⟨w, h1, h2, -⟩ := restore_build hnum page hn _ ok' htn
  exact ⟨w, h1, h2.2.1, by rw [h2.2.1]; exact hf⟩

/-! ### Texts that cannot be restored -/

theorem split_free (c : Char) (s : Str) : ∀ w ∈ split c s, c ∉ w := by
  induction s with
  | nil => intro w h; cases h with
    | head => simp
    | tail _ h => cases h
  | cons a s ih =>
    intro w h
    unfold split at h
    by_cases e : a = c
    · rw [if_pos e] at h
      rcases List.mem_cons.mp h with rfl | h
      · simp
      · exact ih w h
    · rw [if_neg e] at h
      cases hs : split c s with
      | nil =>
        rw [hs] at h
        rw [List.mem_singleton] at h
        subst h
        simp only [List.mem_singleton]
        exact fun e' => e e'.symm
      | cons x xs =>
        rw [hs] at h ih
        rcases List.mem_cons.mp h with rfl | h
        · intro hm
          rcases List.mem_cons.mp hm with e' | hm
          · exact e e'.symm
          · exact ih x (List.mem_cons_self ..) hm
        · exact ih w (List.mem_cons_of_mem _ h)

theorem split_sub (c : Char) (s : Str) : ∀ w ∈ split c s, ∀ x ∈ w, x ∈ s := by
  induction s with
  | nil => intro w h; cases h with
    | head => intro x h; cases h
    | tail _ h => cases h
  | cons a s ih =>
    intro w h x hx
    unfold split at h
    by_cases e : a = c
    · rw [if_pos e] at h
      rcases List.mem_cons.mp h with rfl | h
      · cases hx
      · exact List.mem_cons_of_mem _ (ih w h x hx)
    · rw [if_neg e] at h
      cases hs : split c s with
      | nil =>
        rw [hs] at h
        rw [List.mem_singleton] at h
        subst h
        rw [List.mem_singleton] at hx
        subst hx
        exact List.mem_cons_self ..
      | cons y ys =>
        rw [hs] at h ih
        rcases List.mem_cons.mp h with rfl | h
        · rcases List.mem_cons.mp hx with e' | hx
          · subst e'; exact List.mem_cons_self ..
          · exact List.mem_cons_of_mem _ (ih y (List.mem_cons_self ..) x hx)
        · exact List.mem_cons_of_mem _ (ih w (List.mem_cons_of_mem _ h) x hx)

/-- An invariant of a loop. -/
theorem loop_inv {α : Type} (P : View N → Prop) (f : View N → α → View N × Bool) (l : List α)
    (h : ∀ a ∈ l, ∀ v, P v → P (f v a).1) : ∀ v, P v → P (loop f v l).1 := by
  induction l with
  | nil => intro v hv; exact hv
  | cons a l ih =>
    intro v hv
    rw [loop]
    have := h a (List.mem_cons_self ..) v hv
    by_cases e : (f v a).2 = true
    · rw [if_pos e]; exact this
    · rw [if_neg e]; exact ih (fun b hb => h b (List.mem_cons_of_mem _ hb)) _ this

theorem item_same (page : Page) (t : Str) (v : View N) (s : Str) : Same (item page t v s).1 v := by
  unfold item
  by_cases h : '=' ∈ s
  · rw [if_pos h]
    cases split '=' s with
    | nil => exact Same.refl v
    | cons k l =>
      cases l with
      | nil => exact Same.refl v
      | cons x l =>
        cases l with
        | nil =>
          show Same (if k = kFilter ∧ x ≠ [] then setFilter page v t x else (v, false)).1 v
          split
          · exact ⟨rfl, rfl, rfl, rfl, rfl, rfl⟩
          · exact Same.refl v
        | cons y l => exact Same.refl v
  · rw [if_neg h]
    unfold toggle
    cases dget page t with
    | none => exact Same.refl v
    | some chans =>
      simp only
      split
      · exact ⟨rfl, rfl, rfl, rfl, rfl, rfl⟩
      · exact Same.refl v

theorem part_same (page : Page) (v : View N) (s : Str) : Same (part page v s).1 v := by
  unfold part
  cases split ':' s with
  | nil => exact Same.refl v
  | cons t l =>
    cases l with
    | nil => exact Same.refl v
    | cons cs l =>
      exact loop_inv (fun u => Same u v) _ _ (fun a _ u hu => (item_same page t u a).trans hu) v (Same.refl v)

theorem parts_same (page : Page) (v : View N) (l : List Str) : Same (loop (part page) v l).1 v :=
  loop_inv (fun u => Same u v) _ _ (fun a _ u hu => (part_same page u a).trans hu) v (Same.refl v)

/-- What no hash restores in the filter of the tabs. -/
def Bad (s : Str) : Prop := '/' ∈ s ∨ ',' ∈ s ∨ '=' ∈ s

theorem headItem_free (M : Num N) (v : View N) (s : Str) (hs : '/' ∉ s ∧ ',' ∉ s) (hv : ¬ Bad v.tabFilter) :
    ¬ Bad (headItem M v s).tabFilter := by
  unfold headItem
  by_cases h : '=' ∈ s
  · rw [if_pos h]
    have hfree := split_free '=' s
    have hsub := split_sub '=' s
    generalize split '=' s = l at hfree hsub
    cases l with
    | nil => exact hv
    | cons k l =>
      cases l with
      | nil => exact hv
      | cons x l =>
        cases l with
        | cons y l => exact hv
        | nil =>
          have hx : ¬ Bad x := by
            rintro (h' | h' | h')
            · exact hs.1 (hsub x (by simp) _ h')
            · exact hs.2 (hsub x (by simp) _ h')
            · exact hfree x (by simp) h'
          simp only
          by_cases e1 : k = kFilter ∧ x ≠ [] <;> by_cases e2 : k = kPeriod
          · rw [if_pos e1, if_pos e2]; exact hx
          · rw [if_pos e1, if_neg e2]; exact hx
          · rw [if_neg e1, if_pos e2]; exact hv
          · rw [if_neg e1, if_neg e2]; exact hv
  · rw [if_neg h]; exact hv

theorem heads_keep (M : Num N) (v : View N) (l : List Str) :
    (heads M v l).tabFilter = (l.foldl (headItem M) v).tabFilter ∧
    (heads M v l).filters = (l.foldl (headItem M) v).filters := by
  unfold heads
  constructor <;> simp only <;> split <;> split <;> split <;> rfl

theorem headItem_filters (M : Num N) (v : View N) (s : Str) : (headItem M v s).filters = v.filters := by
  unfold headItem
  split
  · split
    · simp only
      split <;> split <;> rfl
    · rfl
  · rfl

theorem fold_free (M : Num N) (items : List Str) (hall : ∀ s ∈ items, '/' ∉ s ∧ ',' ∉ s) :
    ∀ u : View N, ¬ Bad u.tabFilter → ¬ Bad (items.foldl (headItem M) u).tabFilter := by
  induction items with
  | nil => intro u hb; exact hb
  | cons s items ih =>
    intro u hb
    rw [List.foldl_cons]
    exact ih (fun s' hs' => hall s' (List.mem_cons_of_mem _ hs')) _
      (headItem_free M u s (hall s (List.mem_cons_self ..)) hb)

/-- C94 fails for a filter of the tabs with a slash, a comma or an equals sign in it: no hash restores
it. -/
theorem C94_special_fails (M : Num N) (page : Page) (f : Str) (hf : '/' ∈ f ∨ ',' ∈ f ∨ '=' ∈ f) (orig : Str) :
    (restore M page orig).1.tabFilter ≠ f := by
  have key : ¬ Bad (restore M page orig).1.tabFilter := by
    have h0 : ¬ Bad ([] : Str) := by simp [Bad]
    unfold restore
    by_cases e : orig = []
    · rw [if_pos e]; exact h0
    · rw [if_neg e]
      have hfree := split_free '/' orig
      generalize split '/' orig = l at hfree
      cases l with
      | nil => exact h0
      | cons hd parts =>
        simp only
        have hs := parts_same page { View.init M with tab := (split ',' hd).headD [] } parts
        have hb : ¬ Bad (loop (part page) { View.init M with tab := (split ',' hd).headD [] } parts).1.tabFilter := by
          rw [hs.2.1]; exact h0
        by_cases e2 : (loop (part page) { View.init M with tab := (split ',' hd).headD [] } parts).2 = true
        · rw [if_pos e2]; exact hb
        · rw [if_neg e2]
          show ¬ Bad (heads M _ _).tabFilter
          rw [(heads_keep M _ _).1]
          have hall : ∀ s ∈ split ',' hd, '/' ∉ s ∧ ',' ∉ s := fun s hs =>
            ⟨fun hm => hfree hd (List.mem_cons_self ..) (split_sub ',' hd s hs _ hm), split_free ',' hd s hs⟩
          exact fold_free M _ hall _ hb
  intro h
  rw [h] at key
  exact key hf

/-- All channel filters are free of separators. -/
def FiltersClean (v : View N) : Prop := ∀ t, Clean (v.filterOf t)

theorem item_clean {page : Page} {t s : Str} (hs : '/' ∉ s ∧ ',' ∉ s ∧ ':' ∉ s) (v : View N)
    (hv : FiltersClean v) : FiltersClean (item page t v s).1 := by
  unfold item
  by_cases h : '=' ∈ s
  · rw [if_pos h]
    have hfree := split_free '=' s
    have hsub := split_sub '=' s
    generalize split '=' s = l at hfree hsub
    cases l with
    | nil => exact hv
    | cons k l =>
      cases l with
      | nil => exact hv
      | cons x l =>
        cases l with
        | cons y l => exact hv
        | nil =>
          have hx : Clean x := ⟨fun h' => hs.1 (hsub x (by simp) _ h'), fun h' => hs.2.1 (hsub x (by simp) _ h'),
            fun h' => hs.2.2 (hsub x (by simp) _ h'), hfree x (by simp)⟩
          show FiltersClean (if k = kFilter ∧ x ≠ [] then setFilter page v t x else (v, false)).1
          split
          · intro t'
            unfold setFilter View.filterOf
            simp only [dget_dset]
            by_cases e : t = t'
            · rw [if_pos e]; exact hx
            · rw [if_neg e]; exact hv t'
          · exact hv
  · rw [if_neg h]
    unfold toggle
    cases dget page t with
    | none => exact hv
    | some chans =>
      simp only
      split
      · exact hv
      · exact hv

theorem part_clean {page : Page} {s : Str} (hs : '/' ∉ s) (v : View N) (hv : FiltersClean v) :
    FiltersClean (part page v s).1 := by
  unfold part
  have hfree := split_free ':' s
  have hsub := split_sub ':' s
  generalize split ':' s = l at hfree hsub
  cases l with
  | nil => exact hv
  | cons t l =>
    cases l with
    | nil => exact hv
    | cons cs l =>
      refine loop_inv FiltersClean _ _ ?_ v hv
      intro a ha u hu
      refine item_clean ⟨?_, split_free ',' cs a ha, ?_⟩ u hu
      · exact fun h => hs (hsub cs (by simp) _ (split_sub ',' cs a ha _ h))
      · exact fun h => hfree cs (by simp) (split_sub ',' cs a ha _ h)

/-- C94: an item of a tab with an unknown key, without a value or with more than one `=` is passed over. -/
theorem C94_ignored (page : Page) (t : Str) (v : View N) (k x : Str) (hk : '=' ∉ k)
    (h : '=' ∈ x ∨ x = [] ∨ k ≠ kFilter) : item page t v (k ++ '=' :: x) = (v, false) := by
  unfold item
  rw [if_pos (by simp), split_append hk]
  by_cases hx : '=' ∈ x
  · obtain ⟨a, b, rfl, ha⟩ := List.eq_append_cons_of_mem hx
    rw [split_append ha]
    cases hb : split '=' b with
    | nil =>
      cases b with
      | nil => cases hb
      | cons y b =>
        rw [split] at hb
        split at hb
        · cases hb
        · split at hb <;> cases hb
    | cons c d => rfl
  · rw [split_none hx]
    simp only
    rw [if_neg]
    rintro ⟨h1, h2⟩
    rcases h with h | h | h
    · exact hx h
    · exact h2 h
    · exact h h1

/-- C94 fails for a channel filter with a separator in it: no hash restores it. -/
theorem C94_channel_filter_fails (M : Num N) (page : Page) (t f : Str)
    (hf : '/' ∈ f ∨ ',' ∈ f ∨ ':' ∈ f ∨ '=' ∈ f) (orig : Str) :
    (restore M page orig).1.filterOf t ≠ f := by
  have key : FiltersClean (restore M page orig).1 := by
    have h0 : ∀ s, FiltersClean { View.init M with tab := s } := fun _ _ => clean_nil
    unfold restore
    by_cases e : orig = []
    · rw [if_pos e]; exact h0 []
    · rw [if_neg e]
      have hfree := split_free '/' orig
      generalize split '/' orig = l at hfree
      cases l with
      | nil => exact h0 []
      | cons hd parts =>
        simp only
        have hb : FiltersClean (loop (part page) { View.init M with tab := (split ',' hd).headD [] } parts).1 :=
          loop_inv FiltersClean _ _ (fun a ha u hu => part_clean (hfree a (List.mem_cons_of_mem _ ha)) u hu) _ (h0 _)
        by_cases e2 : (loop (part page) { View.init M with tab := (split ',' hd).headD [] } parts).2 = true
        · rw [if_pos e2]; exact hb
        · rw [if_neg e2]
          intro t'
          have hfl : ∀ (l : List Str) (u : View N), (l.foldl (headItem M) u).filters = u.filters := by
            intro l
            induction l with
            | nil => intro u; rfl
            | cons a l ih => intro u; rw [List.foldl_cons, ih, headItem_filters]
          unfold View.filterOf
          show Clean ((dget (heads M _ _).filters t').getD [])
          rw [(heads_keep M _ _).2, hfl]
          exact hb t'
  intro h
  have := key t
  rw [h] at this
  rcases hf with h' | h' | h' | h'
  · exact this.1 h'
  · exact this.2.1 h'
  · exact this.2.2.1 h'
  · exact this.2.2.2 h'

/-- C94 fails for a shown tab named `hide-tabs`: the restored page hides its tabs. -/
theorem C94_option_name_fails {M : Num N} (page : Page)
    (hn : (page.map (·.1)).Nodup) (v : View N) (ok : Ok M page v) (ht : v.tab = kTabs) :
    (restore M page (build M page v)).2 = false ∧ (restore M page (build M page v)).1.tabsShown = false := by
  obtain ⟨s1, s2⟩ := split_build ok
  obtain ⟨w, a1, -, -, a4⟩ := all_parts ok hn page (fun _ h => h) hn { View.init M with tab := v.tab }
  have he : ¬ build M page v = [] := by
    intro he
    rw [he] at s1
    have e1 := (List.cons.inj s1).1
    rw [joinC_cons, ht] at e1
    cases e1
  have e : restore M page (build M page v) = (heads M w (v.tab :: v.opts M), false) := by
    unfold restore
    rw [if_neg he, s1]
    simp only [s2, List.headD_cons]
    rw [a1]
    rfl
  rw [e]
  refine ⟨rfl, ?_⟩
  have hs : ∀ (l : List Str) (u : View N), (l.foldl (headItem M) u).tabsShown = u.tabsShown := by
    intro l
    induction l with
    | nil => intro u; rfl
    | cons a l ih =>
      intro u
      rw [List.foldl_cons, ih]
      unfold headItem
      split
      · split
        · simp only
          split <;> split <;> rfl
        · rfl
      · rfl
  have hm : kTabs ∈ v.tab :: v.opts M := by rw [ht]; exact List.mem_cons_self ..
  have h1 : (((v.tab :: v.opts M).foldl (headItem M) w)).tabsShown = true := by
    rw [hs, a4.2.2.1]
    rfl
  show (heads M w (v.tab :: v.opts M)).tabsShown = false
  unfold heads
  generalize (v.tab :: v.opts M).foldl (headItem M) w = x at h1
  simp only [if_pos hm]
  split <;> split <;> simp [h1]

theorem loop_err {α : Type} (f : View N → α → View N × Bool) (l : List α) (a : α) (ha : a ∈ l)
    (he : ∀ v, (f v a).2 = true) : ∀ v, (loop f v l).2 = true := by
  induction l with
  | nil => cases ha
  | cons b l ih =>
    intro v
    rw [loop]
    by_cases e : (f v b).2 = true
    · rw [if_pos e]
    · rw [if_neg e]
      rcases List.mem_cons.mp ha with rfl | h
      · exact absurd (he v) e
      · exact ih h _

/-- C94 fails if a tab with plotted channels or a filter is gone from the page: restoring raises an
exception, nothing of the options is restored and the page does not start. -/
theorem C94_gone_fails {M : Num N} (page page' : Page) (v : View N) (ok : Ok M page v) (t : Str)
    (ht : t ∈ page.map (·.1)) (hi : v.items t ≠ []) (hg : dget page' t = none) :
    (restore M page' (build M page v)).2 = true ∧
    (restore M page' (build M page v)).1.tabsShown = true ∧
    (restore M page' (build M page v)).1.channelsShown = true ∧
    (restore M page' (build M page v)).1.lightMode = false ∧
    (restore M page' (build M page v)).1.tabFilter = [] ∧
    (restore M page' (build M page v)).1.period = M.zero := by
  obtain ⟨s1, s2⟩ := split_build ok
  have hpart : t ++ ':' :: joinC (v.items t) ∈ v.parts (page.map (·.1)) := by
    unfold View.parts
    refine List.mem_map.mpr ⟨t, List.mem_filter.mpr ⟨ht, ?_⟩, rfl⟩
    cases h : v.items t with
    | nil => exact absurd h hi
    | cons a l => rfl
  have he : ¬ build M page v = [] := by
    intro he
    rw [he] at s1
    have e2 := (List.cons.inj s1).2
    rw [← e2] at hpart
    cases hpart
  obtain ⟨p, hp, rfl⟩ := List.mem_map.mp ht
  have herr : ∀ u : View N, (part page' u (p.1 ++ ':' :: joinC (v.items p.1))).2 = true := by
    intro u
    unfold part
    have hns : ':' ∉ joinC (v.items p.1) := by
      intro h
      rcases mem_joinC h with h | ⟨s, hs, hx⟩
      · exact absurd h (by decide)
      · exact (items_free ok hp s hs).2.2.2 hx
    rw [split_append (ok.names p hp).2.2.1, split_none hns]
    show (loop (item page' p.1) u (split ',' (joinC (v.items p.1)))).2 = true
    rw [split_joinC hi (fun s hs => (items_free ok hp s hs).2.2.1)]
    cases h : v.items p.1 with
    | nil => exact absurd h hi
    | cons a l =>
      apply loop_err _ _ a (List.mem_cons_self ..)
      intro u
      have ha : a ∈ v.items p.1 := by rw [h]; exact List.mem_cons_self ..
      unfold View.items at ha
      rcases List.mem_append.mp ha with ha | ha
      · obtain ⟨c, hc, rfl⟩ := List.mem_map.mp ha
        obtain ⟨h1, h2⟩ := List.mem_filter.mp hc
        rw [item_plain (ok.chans p hp c h1 h2).1.2.2.2]
        unfold toggle
        rw [hg]
      · by_cases e : v.filterOf p.1 = []
        · rw [if_pos e] at ha; cases ha
        · rw [if_neg e, List.mem_singleton] at ha
          subst ha
          rw [item_filter (ok.filters p hp).2.2.2 e]
          unfold setFilter
          rw [hg]
          rfl
  have e : restore M page' (build M page v) =
      loop (part page') { View.init M with tab := v.tab } (v.parts (page.map (·.1))) := by
    unfold restore
    rw [if_neg he, s1]
    simp only [s2, List.headD_cons]
    rw [if_pos (loop_err _ _ _ hpart herr _)]
  rw [e]
  have hs := parts_same page' { View.init M with tab := v.tab } (v.parts (page.map (·.1)))
  exact ⟨loop_err _ _ _ hpart herr _, hs.2.2.1, hs.2.2.2.1, hs.2.2.2.2.1, hs.2.1, hs.2.2.2.2.2⟩

/-- C94, a new window: it shows the tab of the button without the column of tabs, everything else as
in the old window; the old one's state is as before, if its tabs were shown. -/
theorem C94_window_partial {M : Num N} (hnum : ∀ x, M.num (M.fmt x) = x) (page : Page)
    (hn : (page.map (·.1)).Nodup) (v : View N) (id : Str) (ok : Ok M page { v with tab := id })
    (htn : id ≠ kTabs ∧ id ≠ kChannels ∧ id ≠ kLight) :
    (∃ w, restore M page (openWindow M page v id).2 = (w, false) ∧ w.tab = id ∧ w.tabsShown = false ∧
      w.tabFilter = v.tabFilter ∧ w.channelsShown = v.channelsShown ∧ w.lightMode = v.lightMode ∧
      w.period = v.period ∧
      ∀ t ∈ page.map (·.1), w.filterOf t = v.filterOf t ∧ ∀ c, w.plotted t c = v.plotted t c) ∧
    (v.tabsShown = true → (openWindow M page v id).1 = v) := by
  constructor
  · have ok' : Ok M page { v with tab := id, tabsShown := false } :=
      ⟨ok.tab, ok.filter, ok.period, ok.names, ok.chans, ok.keys, ok.filters⟩
    obtain ⟨w, h1, ⟨a, b, c, d, e, f⟩, h3⟩ := restore_build hnum page hn _ ok' htn
    exact ⟨w, h1, a, c, b, d, e, f, h3⟩
  · intro h
    obtain ⟨a, b, c, d, e, f, g, i⟩ := v
    simp only at h
    subst h
    rfl

/-- C94 fails for a new window opened while the tabs are hidden: the old window's state says they are
shown, and so does the hash from then on. -/
theorem C94_window_fails (M : Num N) (page : Page) (v : View N) (id : Str) (h : v.tabsShown = false) :
    (openWindow M page v id).1.tabsShown ≠ v.tabsShown ∧
    ((openWindow M page v id).1 = { v with tabsShown := true }) := by
  constructor
  · rw [h]; intro e; cases e
  · rfl

/-! ### A concrete view -/

def caseNum : Num Bool := ⟨false, fun b => if b then "5".toList else "0".toList, fun s => s = "5".toList⟩

def casePage : Page := [("sine".toList, ["sin".toList, "cos".toList, "steps".toList]), ("ui".toList, ["time".toList])]

def caseView : View Bool :=
  ⟨"ui".toList, "s.*".toList, false, true, true,
    [("sine".toList, [("cos".toList, true), ("steps".toList, false), ("sin".toList, true)])],
    [("sine".toList, "^c".toList), ("ui".toList, "t".toList)], true⟩

theorem C94_cases :
    build caseNum casePage caseView =
      "ui,filter=s.*,hide-tabs,light-mode,min-tx-period-ms=5/sine:cos,sin,filter=^c/ui:filter=t".toList
    ∧ restore caseNum casePage (build caseNum casePage caseView) =
      ({ caseView with plot := [("sine".toList, [("cos".toList, true), ("sin".toList, true)])] }, false)
    ∧ (restore caseNum casePage "ui,filter=a,b".toList).1.tabFilter = "a".toList
    ∧ (restore caseNum casePage "ui,hide-tabs/gone:x".toList).2 = true := by
  decide +kernel

theorem C94_cases_hyps : Ok caseNum casePage caseView ∧ TabName caseView ∧ (casePage.map (·.1)).Nodup ∧
    (∀ x, caseNum.num (caseNum.fmt x) = x) ∧
    Plain caseNum (fun c => if c = ' ' then "%20".toList else [c]) casePage caseView := by
  unfold TabName
  refine ⟨⟨?_, ?_, ?_, ?_, ?_, ?_, ?_⟩, by decide, by decide, by decide, ⟨?_, ?_, ?_, ?_, ?_, ?_⟩⟩
  all_goals try unfold Clean
  all_goals decide

end Verif.WindowHash
