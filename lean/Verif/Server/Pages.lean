import Verif.Dict
/-!
C93: the pages of a web application: `net/server/app/create.py` (cached documents),
`net/server/app/__init__.py` (`setup`), `net/server/html.py` (`html_handler`),
`net/server/app/env/__init__.py` (`populate_tabs`), `net/html/bootstrap/tabs.py` (tabs) and the
elements the scripts look up (`data/js/classes/TabInterface.js`, `App.js`, `TabFilter.js`).

A document is what `compose` made of the application's state at that time. Of its elements those are
kept that carry an identifier made from the package's name or from a tab's name; `getElementById`
gives the first in document order. Identifiers within a tab's content are left out.
-/
namespace Verif.Pages

abbrev Str := List Char

/-! ### Documents -/

/-- What `create_cacheable_app` closes over: the name of `compose`, the configuration parameter
`caching` and `compose`, create.py 36–72. -/
structure Handler (S D : Type) where
  key : String
  caching : Bool
  compose : S → D

variable {S D : Type}

/-- `create_app`, create.py 75–98: the composing function is always the inner `main`. -/
def createApp (caching : Bool) (compose : S → D) : Handler S D := ⟨"main", caching, compose⟩

/-- `create_cacheable_app(app, landing_page)`, app/__init__.py 56 and 82–90. -/
def landing (caching : Bool) (compose : S → D) : Handler S D := ⟨"landing_page", caching, compose⟩

/-- `cached_app`, create.py 42–70, with `DOCUMENTS`. -/
def serve (docs : List (String × D)) (h : Handler S D) (s : S) : List (String × D) × D :=
  if h.caching = true then
    match dget docs h.key with
    | some d => (docs, d)
    | none => (dset docs h.key (h.compose s), h.compose s)
  else (dset docs h.key (h.compose s), h.compose s)

/-- Registration of paths, app/__init__.py 73–75 and 89–90. -/
def register (apps : List (String × Handler S D)) (h : Handler S D) (paths : List String) :
    List (String × Handler S D) :=
  paths.foldl (fun t p => dset t p h) apps

/-- `setup`, app/__init__.py 59–94, without redirects and the browser. -/
def setup (apps : List (String × Handler S D)) (main land : Handler S D)
    (mainPaths landPaths : List String) : List (String × Handler S D) :=
  register (register apps main mainPaths) land landPaths

/-- What happens to a server: the application changes, a page is asked for. -/
inductive Ev (S : Type) where
  | change (s : S)
  | get (path : String)

/-- The server: `DOCUMENTS`, the application, and the answers so far. -/
structure Srv (S D : Type) where
  docs : List (String × D)
  state : S
  answers : List (Option D)

/-- One event; `html_handler`, html.py 29–47. -/
def Srv.step (apps : List (String × Handler S D)) (v : Srv S D) : Ev S → Srv S D
  | .change s => { v with state := s }
  | .get path =>
    match dget apps path with
    | none => { v with answers := v.answers ++ [none] }
    | some h =>
      { v with docs := (serve v.docs h v.state).1, answers := v.answers ++ [some (serve v.docs h v.state).2] }

def Srv.run (apps : List (String × Handler S D)) (v : Srv S D) (es : List (Ev S)) : Srv S D :=
  es.foldl (Srv.step apps) v

/-- The answer to a request. -/
def Srv.answer (apps : List (String × Handler S D)) (v : Srv S D) (path : String) : Option D :=
  ((v.step apps (.get path)).answers.getLast?).join

/-! ### Tabs -/

/-- Something with a channel environment: its name and (the identity of) its command processor. -/
structure Ent where
  name : Str
  env : Nat
  deriving DecidableEq

/-- What `populate_tabs` goes through. A peer has a host side and a remote side. -/
structure App where
  conns : List Ent
  tasks : List Ent
  structs : List Ent
  peers : List (Ent × Ent)
  program : Option (Ent × Ent)

/-- `populate_tabs`, env/__init__.py 20–103. -/
def App.ents (a : App) : List Ent :=
  a.conns ++ a.tasks ++ a.structs ++ (a.peers.flatMap fun p => [p.1, p.2])
    ++ (a.program.toList.flatMap fun p => [p.1, p.2])

/-- A tab: its entity, and whether it is the active one. -/
structure Tab where
  ent : Ent
  active : Bool

/-- `TabbedContent.create` for each entity, tabs.py 115–147, with the attribute `active_tab`. -/
def mkTabs : Bool → List Ent → List Tab
  | _, [] => []
  | active, e :: es => ⟨e, active⟩ :: mkTabs (if active = true then false else active) es

/-- The tabs of the page. -/
def App.page (a : App) : List Tab := mkTabs true a.ents

def pkg : Str := "runtimepy".toList

/-- `f"{name}-{item}"`, tabs.py 58. -/
def contentId (n : Str) : Str := pkg ++ '-' :: n

/-- `f"{name}-{item}-tab"`, tabs.py 31. -/
def buttonId (n : Str) : Str := contentId n ++ "-tab".toList

/-- Elements; those of a tab with the tab's number. -/
inductive El where
  | shell
  | column
  | window (i : Nat)
  | button (i : Nat)
  | contents
  | content (i : Nat)
  | modal
  | splash
  deriving DecidableEq

/-- Elements before those of the tabs' contents, tabs.py 82–101 and 120–138. -/
def front (names : List Str) : List (El × Str) :=
  [(.shell, pkg), (.column, contentId "tabs".toList)]
    ++ (names.zipIdx.flatMap fun n => [(.window n.2, n.1), (.button n.2, buttonId n.1)])
    ++ [(.contents, contentId "tabContent".toList)]

/-- The document, tabs.py 82–147, env/modal.py 26–30, env/__init__.py 154–159. -/
def elements (names : List Str) : List (El × Str) :=
  front names ++ (names.zipIdx.map fun n => (.content n.2, contentId n.1))
    ++ [(.modal, contentId "plot".toList), (.splash, contentId "splash".toList)]

/-- `document.getElementById`. -/
def byId (doc : List (El × Str)) (id : Str) : Option El :=
  (doc.find? fun p => p.2 = id).map (·.1)

/-! ### The tab filter -/

/-- JavaScript's `split` with a separator of one character. -/
def split (c : Char) : Str → List Str
  | [] => [[]]
  | a :: s =>
    if a = c then [] :: split c s
    else match split c s with
      | [] => [[a]]
      | w :: ws => (a :: w) :: ws

def undef : Str := "undefined".toList

/-- `button.id.split("-")[1]` as the key of an object, TabFilter.js 12–13. -/
def filterKey (id : Str) : Str := ((split '-' id)[1]?).getD undef

/-- `this.buttons`, TabFilter.js 10–14: of all buttons in the column of tabs. -/
def filterAdd (t : List (Str × El)) (n : Str × Nat) : List (Str × El) :=
  dset (dset t (filterKey n.1) (.window n.2)) (filterKey (buttonId n.1)) (.button n.2)

def filterButtons (names : List Str) : List (Str × El) := names.zipIdx.foldl filterAdd []

/-- Whether an element is hidden by `updateStyles`, TabFilter.js 17–32, with the test of the pattern and
the active tab as parameters. -/
def hidden (names : List Str) (test : Str → Bool) (active : El → Bool) (e : El) : Bool :=
  (filterButtons names).any fun p => decide (p.2 = e) && !(test p.1) && !(active e)

/-! ### Documents: proofs -/

theorem dget_register (apps : List (String × Handler S D)) (h : Handler S D) (paths : List String)
    (p : String) : dget (register apps h paths) p = if p ∈ paths then some h else dget apps p := by
  unfold register
  induction paths generalizing apps with
  | nil => simp
  | cons q paths ih =>
    rw [List.foldl_cons, ih, dget_dset]
    by_cases h1 : p ∈ paths
    · simp [h1]
    · by_cases h2 : p = q
      · subst h2; simp
      · have h2' : q ≠ p := fun e => h2 e.symm
        simp [h1, h2, h2']

/-- C93: after `setup`, the landing page is at its paths, the main application at its other paths,
and every other path is as before. -/
theorem C93_setup (apps : List (String × Handler S D)) (main land : Handler S D)
    (mainPaths landPaths : List String) (p : String) :
    (p ∈ landPaths → dget (setup apps main land mainPaths landPaths) p = some land) ∧
    (p ∉ landPaths → p ∈ mainPaths → dget (setup apps main land mainPaths landPaths) p = some main) ∧
    (p ∉ landPaths → p ∉ mainPaths → dget (setup apps main land mainPaths landPaths) p = dget apps p) := by
  unfold setup
  rw [dget_register, dget_register]
  refine ⟨fun h => if_pos h, fun h h' => ?_, fun h h' => ?_⟩
  · rw [if_neg h, if_pos h']
  · rw [if_neg h, if_neg h']

theorem step_none {apps : List (String × Handler S D)} (v : Srv S D) {p : String} (hp : dget apps p = none) :
    v.step apps (.get p) = { v with answers := v.answers ++ [none] } := by
  simp only [Srv.step, hp]

theorem step_some {apps : List (String × Handler S D)} (v : Srv S D) {p : String} {h : Handler S D}
    (hp : dget apps p = some h) : v.step apps (.get p) =
      { v with docs := (serve v.docs h v.state).1, answers := v.answers ++ [some (serve v.docs h v.state).2] } := by
  simp only [Srv.step, hp]

theorem step_state (apps : List (String × Handler S D)) (v : Srv S D) (p : String) :
    (v.step apps (.get p)).state = v.state := by
  cases hp : dget apps p with
  | none => rw [step_none v hp]
  | some h => rw [step_some v hp]

theorem answer_some {apps : List (String × Handler S D)} {v : Srv S D} {path : String} {h : Handler S D}
    (hp : dget apps path = some h) : v.answer apps path = some (serve v.docs h v.state).2 := by
  simp [Srv.answer, Srv.step, hp]

/-- What the cache holds after serving. -/
theorem dget_serve (docs : List (String × D)) (h : Handler S D) (s : S) (k : String) :
    dget (serve docs h s).1 k = if k = h.key then some (serve docs h s).2 else dget docs k := by
  unfold serve
  by_cases hc : h.caching = true
  · rw [if_pos hc]
    cases hd : dget docs h.key with
    | some d =>
      by_cases hk : k = h.key
      · subst hk; simp [hd]
      · simp [hk]
    | none =>
      show dget (dset docs h.key (h.compose s)) k = _
      rw [dget_dset]
      by_cases hk : k = h.key
      · subst hk; simp
      · have hk' : h.key ≠ k := fun e => hk e.symm
        simp [hk, hk']
  · rw [if_neg hc, dget_dset]
    by_cases hk : k = h.key
    · subst hk; simp
    · have hk' : h.key ≠ k := fun e => hk e.symm
      simp [hk, hk']

/-- C93, a fresh page: without caching, and for the first page composed under the function's name, the
answer is what the path's application makes of the current state. -/
theorem C93_fresh (apps : List (String × Handler S D)) (v : Srv S D) (path : String) (h : Handler S D)
    (hp : dget apps path = some h) (hf : h.caching = false ∨ dget v.docs h.key = none) :
    v.answer apps path = some (h.compose v.state) := by
  rw [answer_some hp]
  unfold serve
  rcases hf with hf | hf
  · rw [hf]; rfl
  · by_cases hc : h.caching = true
    · rw [if_pos hc, hf]
    · rw [if_neg hc]

/-- Every path's page is composed under a name of its own, or by the same application. -/
def Own (apps : List (String × Handler S D)) : Prop :=
  ∀ p q h h', dget apps p = some h → dget apps q = some h' → h.key = h'.key → h = h'

/-- The states the application has been in. -/
def seen (s : S) : List (Ev S) → List S
  | [] => [s]
  | .change s' :: es => s :: seen s' es
  | .get _ :: es => seen s es

theorem state_seen (apps : List (String × Handler S D)) (es : List (Ev S)) : ∀ v : Srv S D,
    (v.run apps es).state ∈ seen v.state es := by
  induction es with
  | nil => intro v; simp [Srv.run, seen]
  | cons e es ih =>
    intro v
    cases e with
    | change s' => exact List.mem_cons_of_mem _ (ih { v with state := s' })
    | get p =>
      simp only [Srv.run, List.foldl_cons, seen]
      have := ih (v.step apps (.get p))
      have e : (v.step apps (.get p)).state = v.state := step_state apps v p
      rw [e] at this
      exact this

/-- Documents made by their own applications. -/
def Made (apps : List (String × Handler S D)) (past : S → Prop) (docs : List (String × D)) : Prop :=
  ∀ p h d, dget apps p = some h → dget docs h.key = some d → ∃ s, past s ∧ d = h.compose s

theorem serve_made {apps : List (String × Handler S D)} {past : S → Prop} {docs : List (String × D)}
    (hm : Made apps past docs) {p : String} {h : Handler S D} (hp : dget apps p = some h) {s : S}
    (hs : past s) : ∃ s', past s' ∧ (serve docs h s).2 = h.compose s' := by
  unfold serve
  by_cases hc : h.caching = true
  · rw [if_pos hc]
    cases hd : dget docs h.key with
    | some d => exact hm p h d hp hd
    | none => exact ⟨s, hs, rfl⟩
  · rw [if_neg hc]; exact ⟨s, hs, rfl⟩

theorem run_made {apps : List (String × Handler S D)} (ho : Own apps) (es : List (Ev S)) :
    ∀ (v : Srv S D) (past : S → Prop), Made apps past v.docs → (∀ s ∈ seen v.state es, past s) →
      Made apps past (v.run apps es).docs := by
  induction es with
  | nil => intro v past hm _; exact hm
  | cons e es ih =>
    intro v past hm hs
    cases e with
    | change s' =>
      exact ih { v with state := s' } past hm (fun s h => hs s (List.mem_cons_of_mem _ h))
    | get p =>
      simp only [Srv.run, List.foldl_cons]
      have hst : v.state ∈ seen v.state (.get p :: es) := by
        have : ∀ (es : List (Ev S)) (s : S), s ∈ seen s es := by
          intro es
          induction es with
          | nil => intro s; simp [seen]
          | cons e es ih =>
            intro s
            cases e with
            | change s' => simp [seen]
            | get q => exact ih s
        exact this _ _
      have e : (v.step apps (.get p)).state = v.state := step_state apps v p
      refine ih (v.step apps (.get p)) past ?_ (fun s h => hs s (by rw [e] at h; exact h))
      cases hp : dget apps p with
      | none => rw [step_none v hp]; exact hm
      | some h =>
        rw [step_some v hp]
        intro q h' d hq hd
        have hd' : dget (serve v.docs h v.state).1 h'.key = some d := hd
        rw [dget_serve] at hd'
        by_cases hk : h'.key = h.key
        · rw [if_pos hk] at hd'
          cases hd'
          have := ho q p h' h hq hp hk
          subst this
          exact serve_made hm hp (hs _ hst)
        · rw [if_neg hk] at hd'
          exact hm q h' d hq hd'

/-- C93, whose page it is: if different applications compose under different names, every answer is
a page the path's own application made, of a state the application has been in. -/
theorem C93_own_partial (apps : List (String × Handler S D)) (ho : Own apps) (s : S) (es : List (Ev S))
    (path : String) (h : Handler S D) (hp : dget apps path = some h) :
    ∃ s' ∈ seen s es, ((Srv.mk [] s []).run apps es).answer apps path = some (h.compose s') := by
  have hm := run_made ho es (Srv.mk [] s []) (· ∈ seen s es) (by intro p h d _ hd; cases hd) (fun _ h => h)
  obtain ⟨s', h1, h2⟩ := serve_made hm hp (state_seen apps es (Srv.mk [] s []))
  exact ⟨s', h1, by rw [answer_some hp, h2]⟩

theorem cached_stays {apps : List (String × Handler S D)} (hc : ∀ p h, dget apps p = some h → h.caching = true)
    {k : String} {d : D} (es : List (Ev S)) : ∀ v : Srv S D, dget v.docs k = some d →
      dget (v.run apps es).docs k = some d := by
  induction es with
  | nil => intro v h; exact h
  | cons e es ih =>
    intro v h
    cases e with
    | change s' => exact ih { v with state := s' } h
    | get p =>
      refine ih (v.step apps (.get p)) ?_
      cases hp : dget apps p with
      | none => rw [step_none v hp]; exact h
      | some g =>
        rw [step_some v hp]
        show dget (serve v.docs g v.state).1 k = some d
        rw [dget_serve]
        by_cases hk : k = g.key
        · subst hk
          rw [if_pos rfl]
          unfold serve
          rw [if_pos (hc p g hp), h]
        · rw [if_neg hk]; exact h

/-- C93: with caching, a page never changes after it was first served, whatever happens to the
application: requests are answered with the same document. -/
theorem C93_same (apps : List (String × Handler S D)) (hc : ∀ p h, dget apps p = some h → h.caching = true)
    (v : Srv S D) (path : String) (h : Handler S D) (hp : dget apps path = some h) (es : List (Ev S)) :
    ((v.step apps (.get path)).run apps es).answer apps path = v.answer apps path := by
  have h1 : dget (v.step apps (.get path)).docs h.key = some (serve v.docs h v.state).2 := by
    rw [step_some v hp]
    show dget (serve v.docs h v.state).1 h.key = _
    rw [dget_serve, if_pos rfl]
  have h2 := cached_stays hc es _ h1
  rw [answer_some hp, answer_some hp]
  unfold serve at h2 ⊢
  rw [if_pos (hc path h hp)] at h2 ⊢
  rw [h2, if_pos (hc path h hp)]

/-- C93 fails for a page that shows the application: an entity added after the page was first served is
not in it. -/
theorem C93_late_fails (apps : List (String × Handler App (List Tab)))
    (hc : ∀ p h, dget apps p = some h → h.caching = true) (v : Srv App (List Tab)) (path : String)
    (hp : dget apps path = some (createApp true App.page)) (hd : dget v.docs "main" = none)
    (es : List (Ev App)) (e : Ent) (he : e ∉ v.state.ents) :
    ∃ tabs, ((v.step apps (.get path)).run apps es).answer apps path = some tabs ∧
      ∀ t ∈ tabs, t.ent ≠ e := by
  refine ⟨v.state.page, ?_, ?_⟩
  · rw [C93_same apps hc v path _ hp, C93_fresh apps v path _ hp (.inr hd)]
    rfl
  · intro t ht heq
    apply he
    have : ∀ (es : List Ent) (b : Bool) (t : Tab), t ∈ mkTabs b es → t.ent ∈ es := by
      intro es
      induction es with
      | nil => intro b t h; cases h
      | cons a es ih =>
        intro b t h
        rcases List.mem_cons.mp h with rfl | h
        · exact List.mem_cons_self ..
        · exact List.mem_cons_of_mem _ (ih _ t h)
    rw [← heq]
    exact this _ _ t ht

/-- C93 fails for two applications made by `create_app`: both compose under the name `main`, so with
caching the second path serves the page of the first. -/
theorem C93_shared_fails (apps : List (String × Handler S D)) (s : S) (p q : String) (f g : S → D)
    (hp : dget apps p = some (createApp true f)) (hq : dget apps q = some (createApp true g)) :
    (((Srv.mk [] s []).step apps (.get p))).answer apps q = some (f s) := by
  rw [answer_some hq]
  simp [Srv.step, hp, serve, createApp, dget_nil, dget_dset]

/-! ### Tabs: proofs -/

theorem mkTabs_false (es : List Ent) : mkTabs false es = es.map fun e => ⟨e, false⟩ := by
  induction es with
  | nil => rfl
  | cons e es ih =>
    simp only [mkTabs, List.map_cons]
    rw [if_neg (by decide), ih]

/-- The tabs in their order. -/
theorem page_tabs (a : App) :
    a.page.map Tab.ent = a.ents ∧
    ∀ (i : Nat) (t : Tab), a.page[i]? = some t → (t.active = true ↔ i = 0) := by
  unfold App.page
  cases a.ents with
  | nil => exact ⟨rfl, fun i t h => by cases h⟩
  | cons e es =>
    simp only [mkTabs, if_true, mkTabs_false]
    refine ⟨by simp [List.map_map, Function.comp_def], ?_⟩
    intro i t h
    cases i with
    | zero =>
      cases h
      simp
    | succ i =>
      simp only [List.getElem?_cons_succ, List.getElem?_map, Option.map_eq_some_iff] at h
      obtain ⟨e', -, rfl⟩ := h
      simp

/-- C93: the page has one tab for every connection, task, struct and side of a process, in this
order and no other tab; the first is active and no other. -/
theorem C93_tabs (a : App) :
    (∃ ps gs : List Ent, a.page.map Tab.ent = a.conns ++ a.tasks ++ a.structs ++ ps ++ gs ∧
      ps.length = 2 * a.peers.length ∧
      (∀ (i : Nat) (x y : Ent), a.peers[i]? = some (x, y) → ps[2 * i]? = some x ∧ ps[2 * i + 1]? = some y) ∧
      (a.program = none → gs = []) ∧ ∀ x y, a.program = some (x, y) → gs = [x, y]) ∧
    ∀ (i : Nat) (t : Tab), a.page[i]? = some t → (t.active = true ↔ i = 0) := by
  refine ⟨⟨_, _, (page_tabs a).1, ?_, ?_, ?_, ?_⟩, (page_tabs a).2⟩
  · induction a.peers with
    | nil => rfl
    | cons p ps ih => simp only [List.flatMap_cons, List.length_append, ih, List.length_cons,
        List.length_nil]; omega
  · intro i x y h
    revert i
    induction a.peers with
    | nil => intro i h; simp at h
    | cons p ps ih =>
      intro i h
      cases i with
      | zero =>
        simp only [List.getElem?_cons_zero, Option.some.injEq] at h
        subst h
        exact ⟨rfl, rfl⟩
      | succ i =>
        exact ih i (by simpa using h)
  · intro h; rw [h]; rfl
  · intro x y h; rw [h]; rfl

theorem contentId_inj {n m : Str} (h : contentId n = contentId m) : n = m := by
  unfold contentId at h
  have := List.append_cancel_left h
  simpa using this

theorem buttonId_inj {n m : Str} (h : buttonId n = buttonId m) : n = m :=
  contentId_inj (List.append_cancel_right h)

theorem buttonId_eq (n : Str) : buttonId n = contentId (n ++ "-tab".toList) := by
  unfold buttonId contentId
  rw [List.append_assoc]
  rfl

theorem contentId_ne (n : Str) : contentId n ≠ pkg := by
  intro h
  have := congrArg List.length h
  simp [contentId] at this

theorem find_skip {α : Type} {p : α → Bool} {l r : List α} (h : ∀ x ∈ l, p x = false) :
    (l ++ r).find? p = r.find? p := by
  induction l with
  | nil => rfl
  | cons a l ih =>
    rw [List.cons_append, List.find?_cons, h a (List.mem_cons_self ..)]
    exact ih (fun x hx => h x (List.mem_cons_of_mem _ hx))

theorem find_map_unique {α : Type} (l : List α) (f : α → El) (g : α → Str) (x : α)
    (hg : ∀ a ∈ l, g a = g x → a = x) (hx : x ∈ l) (r : List (El × Str)) :
    ((l.map fun a => (f a, g a)) ++ r).find? (fun p => decide (p.2 = g x)) = some (f x, g x) := by
  induction l with
  | nil => cases hx
  | cons a l ih =>
    rw [List.map_cons, List.cons_append, List.find?_cons]
    by_cases e : g a = g x
    · have := hg a (List.mem_cons_self ..) e
      subst this
      simp
    · simp only [e, decide_false]
      have : x ∈ l := by
        rcases List.mem_cons.mp hx with h | h
        · subst h; exact absurd rfl e
        · exact h
      exact ih (fun a ha => hg a (List.mem_cons_of_mem _ ha)) this

theorem mem_zip {names : List Str} {a : Str × Nat} (h : a ∈ names.zipIdx) : names[a.2]? = some a.1 := by
  have := List.mem_zipIdx_iff_getElem?.mp h
  simpa using this

theorem zip_mem {names : List Str} {i : Nat} {n : Str} (h : names[i]? = some n) : (n, i) ∈ names.zipIdx :=
  List.mem_zipIdx_iff_getElem?.mpr (by simpa using h)

theorem mem_of_zip {names : List Str} {a : Str × Nat} (h : a ∈ names.zipIdx) : a.1 ∈ names :=
  List.mem_of_getElem? (mem_zip h)

/-- No two tabs have this name. -/
def Once (names : List Str) (n : Str) : Prop :=
  ∀ i j : Nat, names[i]? = some n → names[j]? = some n → i = j

theorem once_zip {names : List Str} {i : Nat} {n : Str} (ho : Once names n) (hi : names[i]? = some n)
    {a : Str × Nat} (ha : a ∈ names.zipIdx) (e : a.1 = n) : a = (n, i) := by
  have := mem_zip ha
  rw [e] at this
  have h2 := ho _ _ this hi
  obtain ⟨x, y⟩ := a
  simp only at e h2
  rw [e, h2]

/-- No identifier before the contents is this one. -/
theorem front_free {names : List Str} {n : Str} (h1 : n ≠ "tabs".toList) (h2 : n ≠ "tabContent".toList)
    (h3 : ∀ m ∈ names, n ≠ m ++ "-tab".toList) (h4 : ∀ m ∈ names, m ≠ contentId n) :
    ∀ p ∈ front names, decide (p.2 = contentId n) = false := by
  intro p hp
  simp only [front, List.mem_append, List.mem_cons, List.mem_flatMap, List.not_mem_nil, or_false] at hp
  simp only [decide_eq_false_iff_not]
  rcases hp with ((rfl | rfl) | ⟨m, hm, rfl | rfl⟩) | rfl
  · exact fun h => contentId_ne n h.symm
  · exact fun h => h1 (contentId_inj h).symm
  · exact h4 m.1 (mem_of_zip hm)
  · intro h
    rw [buttonId_eq] at h
    exact h3 m.1 (mem_of_zip hm) (contentId_inj h).symm
  · exact fun h => h2 (contentId_inj h).symm

theorem content_found {names : List Str} {i : Nat} {n : Str} (hn : names[i]? = some n) (ho : Once names n)
    (h1 : n ≠ "tabs".toList) (h2 : n ≠ "tabContent".toList)
    (h3 : ∀ m ∈ names, n ≠ m ++ "-tab".toList) (h4 : ∀ m ∈ names, m ≠ contentId n) :
    byId (elements names) (contentId n) = some (.content i) := by
  unfold byId elements
  rw [List.append_assoc, find_skip (front_free h1 h2 h3 h4)]
  have := find_map_unique names.zipIdx (fun a => El.content a.2) (fun a => contentId a.1) (n, i)
    (fun a ha e => once_zip ho hn ha (contentId_inj e)) (zip_mem hn)
    [(.modal, contentId "plot".toList), (.splash, contentId "splash".toList)]
  simp only at this
  rw [this]
  rfl

/-- C93: a tab's script finds its own content and its own button, provided no other tab has its name, its
name is not one of the page's own (`tabs`, `tabContent`), is not another tab's name with `-tab` after it, and
no tab is named like one of its identifiers. -/
theorem C93_lookup_partial (names : List Str) (i : Nat) (n : Str) (hn : names[i]? = some n)
    (ho : Once names n) (h1 : n ≠ "tabs".toList)
    (h2 : n ≠ "tabContent".toList) (h3 : ∀ m ∈ names, n ≠ m ++ "-tab".toList)
    (h4 : ∀ m ∈ names, m ≠ contentId n ∧ m ≠ buttonId n) :
    byId (elements names) (contentId n) = some (.content i) ∧
    byId (elements names) (buttonId n) = some (.button i) := by
  constructor
  · exact content_found hn ho h1 h2 h3 (fun m hm => (h4 m hm).1)
  · unfold byId elements front
    simp only [List.append_assoc]
    rw [find_skip (l := [(El.shell, pkg), (El.column, contentId "tabs".toList)])]
    · have key : ∀ (l : List (Str × Nat)) (r : List (El × Str)), (n, i) ∈ l →
          (∀ a ∈ l, a.1 ≠ buttonId n) → (∀ a ∈ l, a.1 = n → a = (n, i)) →
          ((l.flatMap fun n => [(El.window n.2, n.1), (El.button n.2, buttonId n.1)]) ++ r).find?
            (fun p => decide (p.2 = buttonId n)) = some (.button i, buttonId n) := by
        intro l r
        induction l with
        | nil => intro h; cases h
        | cons a l ih =>
          intro hm hne huniq
          simp only [List.flatMap_cons, List.cons_append, List.nil_append]
          rw [List.find?_cons]
          simp only [hne a (List.mem_cons_self ..), decide_false]
          rw [List.find?_cons]
          by_cases e : buttonId a.1 = buttonId n
          · have := huniq a (List.mem_cons_self ..) (buttonId_inj e)
            subst this
            simp
          · simp only [e, decide_false]
            refine ih ?_ (fun m hm => hne m (List.mem_cons_of_mem _ hm))
              (fun m hm => huniq m (List.mem_cons_of_mem _ hm))
            rcases List.mem_cons.mp hm with h | h
            · subst h; exact absurd rfl e
            · exact h
      rw [key names.zipIdx _ (zip_mem hn) (fun a ha => (h4 a.1 (mem_of_zip ha)).2)
        (fun a ha e => once_zip ho hn ha e)]
      rfl
    · intro p hp
      simp only [List.mem_cons, List.not_mem_nil, or_false] at hp
      simp only [decide_eq_false_iff_not]
      rw [buttonId_eq]
      rcases hp with rfl | rfl
      · exact fun h => contentId_ne _ h.symm
      · intro h
        have := congrArg List.getLast? (contentId_inj h)
        rw [List.getLast?_append] at this
        simp at this

/-- An identifier that is used before the contents is not that of a content. -/
theorem byId_front {names : List Str} {id : Str} (h : ∃ p ∈ front names, p.2 = id) (m : Nat) :
    byId (elements names) id ≠ some (.content m) := by
  obtain ⟨p, hp, rfl⟩ := h
  intro hb
  unfold byId elements at hb
  rw [List.append_assoc, List.find?_append] at hb
  cases hf : (front names).find? (fun q => decide (q.2 = p.2)) with
  | none =>
    have := List.find?_eq_none.mp hf p hp
    simp at this
  | some q =>
    rw [hf] at hb
    simp only [Option.or, Option.map_some, Option.some.injEq] at hb
    have hq := List.mem_of_find?_eq_some hf
    simp only [front, List.mem_append, List.mem_cons, List.mem_flatMap, List.not_mem_nil, or_false] at hq
    rcases hq with ((rfl | rfl) | ⟨m', -, rfl | rfl⟩) | rfl <;> cases hb

/-- C93 fails for a tab whose name is another's with `-tab` after it: its script finds something else
(the button of the other tab) instead of its content. -/
theorem C93_suffix_fails (names : List Str) (n : Str) (hn : n ∈ names) (m : Nat) :
    byId (elements names) (contentId (n ++ "-tab".toList)) ≠ some (.content m) := by
  apply byId_front
  obtain ⟨i, hi⟩ := List.getElem?_of_mem hn
  refine ⟨(.button i, buttonId n), ?_, buttonId_eq n⟩
  simp only [front, List.mem_append, List.mem_cons, List.mem_flatMap]
  exact .inl (.inr ⟨(n, i), zip_mem hi, .inr (.inl rfl)⟩)

/-- C93 fails for a tab named `tabs`: its script takes the column of buttons for its content. -/
theorem C93_reserved_fails (names : List Str) :
    byId (elements names) (contentId "tabs".toList) = some .column := by
  unfold byId elements front
  simp only [List.append_assoc, List.cons_append]
  rw [List.find?_cons]
  have : decide (pkg = contentId "tabs".toList) = false := by decide
  simp only [this]
  rw [List.find?_cons]
  simp

/-- C93 fails for a tab named `plot` or `splash`: the application's script takes the tab's content for its own
dialogue or splash screen. -/
theorem C93_plot_fails (names : List Str) (i : Nat) (n : Str) (hn : names[i]? = some n) (ho : Once names n)
    (hr : n = "plot".toList ∨ n = "splash".toList) (h3 : ∀ m ∈ names, n ≠ m ++ "-tab".toList)
    (h4 : ∀ m ∈ names, m ≠ contentId n) :
    byId (elements names) (contentId n) = some (.content i) := by
  have h1 : n ≠ "tabs".toList := by rcases hr with rfl | rfl <;> decide
  have h2 : n ≠ "tabContent".toList := by rcases hr with rfl | rfl <;> decide
  exact content_found hn ho h1 h2 h3 h4

/-- C93 fails for two entities of one name (a connection and a task, say): the second one's script works
on the content of another element. -/
theorem C93_twice_fails (names : List Str) (i j : Nat) (n : Str) (hi : names[i]? = some n)
    (hij : i < j) : byId (elements names) (contentId n) ≠ some (.content j) := by
  intro hb
  unfold byId elements at hb
  rw [List.append_assoc, List.find?_append] at hb
  cases hf : (front names).find? (fun q => decide (q.2 = contentId n)) with
  | some q =>
    rw [hf] at hb
    simp only [Option.or, Option.map_some, Option.some.injEq] at hb
    have hq := List.mem_of_find?_eq_some hf
    simp only [front, List.mem_append, List.mem_cons, List.mem_flatMap, List.not_mem_nil, or_false] at hq
    rcases hq with ((rfl | rfl) | ⟨m', -, rfl | rfl⟩) | rfl <;> cases hb
  | none =>
    rw [hf] at hb
    simp only [Option.or] at hb
    have key : ∀ (l : List Str) (k i : Nat) (r : List (El × Str)), l[i]? = some n → k + i < j →
        ((((l.zipIdx k).map fun a => (El.content a.2, contentId a.1)) ++ r).find?
          (fun q => decide (q.2 = contentId n))).map (·.1) ≠ some (.content j) := by
      intro l
      induction l with
      | nil => intro k i r h; simp at h
      | cons a l ih =>
        intro k i r h hk
        simp only [List.zipIdx_cons, List.map_cons, List.cons_append, List.find?_cons]
        by_cases e : contentId a = contentId n
        · simp only [e, decide_true, Option.map_some, ne_eq, Option.some.injEq, El.content.injEq]
          omega
        · simp only [e, decide_false]
          cases i with
          | zero =>
            simp only [List.getElem?_cons_zero, Option.some.injEq] at h
            exact absurd (congrArg contentId h) e
          | succ i =>
            simp only [List.getElem?_cons_succ] at h
            exact ih (k + 1) i r h (by omega)
    exact key names 0 i _ hi (by omega) hb

/-! ### The tab filter: proofs -/

theorem split_cons (c : Char) (s : Str) : split c (c :: s) = [] :: split c s := by
  simp [split]

theorem split_skip {c : Char} {w : Str} (hw : c ∉ w) (s : Str) :
    ∃ v vs, split c s = v :: vs ∧ split c (w ++ s) = (w ++ v) :: vs := by
  induction w with
  | nil =>
    cases h : split c s with
    | nil =>
      exfalso
      cases s with
      | nil => cases h
      | cons a s =>
        unfold split at h
        by_cases e : a = c
        · rw [if_pos e] at h; cases h
        · rw [if_neg e] at h
          cases h2 : split c s <;> rw [h2] at h <;> cases h
    | cons v vs => exact ⟨v, vs, rfl, by simpa using h⟩
  | cons a w ih =>
    obtain ⟨v, vs, h1, h2⟩ := ih (fun h => hw (List.mem_cons_of_mem _ h))
    refine ⟨v, vs, h1, ?_⟩
    have e : ¬ a = c := fun e => hw (e ▸ List.mem_cons_self ..)
    rw [List.cons_append, split, if_neg e, h2]
    rfl

/-- What comes before the first separator is the first piece. -/
theorem split_append {c : Char} {w : Str} (hw : c ∉ w) (s : Str) :
    split c (w ++ c :: s) = w :: split c s := by
  obtain ⟨v, vs, h1, h2⟩ := split_skip hw (c :: s)
  rw [split_cons] at h1
  cases h1
  rw [h2, List.append_nil]

theorem split_none {c : Char} {w : Str} (hw : c ∉ w) : split c w = [w] := by
  obtain ⟨v, vs, h1, h2⟩ := split_skip hw []
  cases h1
  rw [List.append_nil] at h2
  exact h2

/-- A name up to its first hyphen. -/
def stem (n : Str) : Str := n.takeWhile (· ≠ '-')

/-- The key of a tab's button is its name up to the first hyphen. -/
theorem key_button (n : Str) : filterKey (buttonId n) = stem n := by
  unfold filterKey buttonId contentId stem
  have e : pkg ++ '-' :: n ++ "-tab".toList = pkg ++ '-' :: (n ++ "-tab".toList) := by simp
  rw [e, split_append (by decide)]
  show (((split '-' (n ++ "-tab".toList))[0]?).getD _) = _
  have hs : '-' ∉ n.takeWhile (· ≠ '-') := by
    intro h
    have := List.all_takeWhile (l := n) (p := (· ≠ '-'))
    rw [List.all_eq_true] at this
    have := this _ h
    simp at this
  have hd : ∃ r, n ++ "-tab".toList = n.takeWhile (· ≠ '-') ++ '-' :: r := by
    clear hs e
    induction n with
    | nil => exact ⟨"tab".toList, rfl⟩
    | cons a n ih =>
      by_cases ha : a = '-'
      · subst ha
        exact ⟨n ++ "-tab".toList, by simp⟩
      · obtain ⟨r, hr⟩ := ih
        refine ⟨r, ?_⟩
        rw [List.takeWhile_cons, if_pos (by simpa using ha), List.cons_append, List.cons_append, ← hr]
  obtain ⟨r, hr⟩ := hd
  rw [hr, split_append hs]
  rfl

theorem key_window {n : Str} (h : '-' ∉ n) : filterKey n = undef := by
  unfold filterKey
  rw [split_none h]
  rfl

theorem stem_plain {n : Str} (h : '-' ∉ n) : stem n = n := by
  induction n with
  | nil => rfl
  | cons a n ih =>
    have e : ¬ a = '-' := fun e => h (e ▸ List.mem_cons_self ..)
    have := ih (fun h' => h (List.mem_cons_of_mem _ h'))
    unfold stem at this ⊢
    rw [List.takeWhile_cons, if_pos (by simpa using e), this]

theorem filter_plain (names : List Str) : ∀ (k : Nat) (t : List (Str × El)),
    (∀ n ∈ names, '-' ∉ n) → (∀ n ∈ names, n ≠ undef) → ∀ m : Str, m ≠ undef →
    (m ∉ names → dget ((names.zipIdx k).foldl filterAdd t) m = dget t m) ∧
    (∀ i : Nat, names[i]? = some m → Once names m →
      dget ((names.zipIdx k).foldl filterAdd t) m = some (.button (k + i))) := by
  induction names with
  | nil => intro k t _ _ m _; exact ⟨fun _ => rfl, fun i h => by simp at h⟩
  | cons n names ih =>
    intro k t hp hu m hm
    have hn := hp n (List.mem_cons_self ..)
    have ih' := ih (k + 1) (filterAdd t (n, k)) (fun x hx => hp x (List.mem_cons_of_mem _ hx))
      (fun x hx => hu x (List.mem_cons_of_mem _ hx)) m hm
    have step : dget (filterAdd t (n, k)) m = if n = m then some (.button k) else dget t m := by
      unfold filterAdd
      rw [key_button, stem_plain hn, key_window hn, dget_dset, dget_dset]
      by_cases e : n = m
      · rw [if_pos e, if_pos e]
      · rw [if_neg e, if_neg (fun h : undef = m => hm h.symm), if_neg e]
    simp only [List.zipIdx_cons, List.foldl_cons]
    constructor
    · intro hmn
      rw [ih'.1 (fun h => hmn (List.mem_cons_of_mem _ h)), step]
      rw [if_neg (fun e : n = m => hmn (e ▸ List.mem_cons_self ..))]
    · intro i hi ho
      cases i with
      | zero =>
        simp only [List.getElem?_cons_zero, Option.some.injEq] at hi
        have : m ∉ names := by
          intro h
          obtain ⟨j, hj⟩ := List.getElem?_of_mem h
          have := ho 0 (j + 1) (by simp [hi]) (by simpa using hj)
          omega
        rw [ih'.1 this, step, if_pos hi]
        rfl
      | succ i =>
        simp only [List.getElem?_cons_succ] at hi
        have := ih'.2 i hi (fun a b ha hb => by
          have := ho (a + 1) (b + 1) (by simpa using ha) (by simpa using hb)
          omega)
        rw [this]
        congr 2
        omega

/-- If no name has a hyphen, a tab is found under its name. -/
theorem filter_found (names : List Str) (hp : ∀ n ∈ names, '-' ∉ n)
    (hu : ∀ n ∈ names, n ≠ undef) (i : Nat) (n : Str) (hn : names[i]? = some n)
    (ho : Once names n) : dget (filterButtons names) n = some (.button i) := by
  have := (filter_plain names 0 [] hp hu n (hu n (List.mem_of_getElem? hn))).2 i hn ho
  simpa [filterButtons] using this

theorem filter_past (l : List Str) (i : Nat) : ∀ (k : Nat) (t : List (Str × El)), i < k →
    ∀ m, dget t m ≠ some (.button i) → dget ((l.zipIdx k).foldl filterAdd t) m ≠ some (.button i) := by
  induction l with
  | nil => intro k t _ m h; exact h
  | cons n l ih =>
    intro k t hk m h
    simp only [List.zipIdx_cons, List.foldl_cons]
    refine ih (k + 1) _ (by omega) m ?_
    unfold filterAdd
    rw [dget_dset, dget_dset]
    split
    · simp only [ne_eq, Option.some.injEq, El.button.injEq]; omega
    · split
      · simp
      · exact h

theorem filter_key_of (l : List Str) (i : Nat) : ∀ (k : Nat) (t : List (Str × El)),
    (∀ m, dget t m ≠ some (.button i)) → ∀ m, dget ((l.zipIdx k).foldl filterAdd t) m = some (.button i) →
      ∃ n, k ≤ i ∧ l[i - k]? = some n ∧ m = stem n := by
  induction l with
  | nil => intro k t h m hm; exact absurd hm (h m)
  | cons n l ih =>
    intro k t h m hm
    simp only [List.zipIdx_cons, List.foldl_cons] at hm
    by_cases hk : k = i
    · subst hk
      by_cases e : m = stem n
      · exact ⟨n, Nat.le_refl _, by simp, e⟩
      · exfalso
        refine filter_past l k (k + 1) _ (by omega) m ?_ hm
        unfold filterAdd
        rw [key_button, dget_dset]
        split
        · rename_i h'; exact absurd (by simpa using h'.symm) e
        · rw [dget_dset]
          split
          · simp
          · exact h m
    · have : ∀ m, dget (filterAdd t (n, k)) m ≠ some (.button i) := by
        intro m
        unfold filterAdd
        rw [dget_dset, dget_dset]
        split
        · simp only [ne_eq, Option.some.injEq, El.button.injEq]; omega
        · split
          · simp
          · exact h m
      obtain ⟨n', h1, h2, h3⟩ := ih (k + 1) _ this m hm
      refine ⟨n', by omega, ?_, h3⟩
      rw [show i - k = (i - (k + 1)) + 1 from by omega, List.getElem?_cons_succ]
      exact h2

theorem dset_nodup {α β : Type} [DecidableEq α] (l : List (α × β)) (k : α) (v : β)
    (h : (l.map (·.1)).Nodup) : ((dset l k v).map (·.1)).Nodup := by
  have e := dset_keys l k v
  have e' : (dset l k v).map (·.1) = _ := e
  rw [e']
  split
  · exact h
  · rename_i hk
    rw [List.nodup_append]
    refine ⟨h, by simp, ?_⟩
    intro a ha b hb
    simp only [List.mem_singleton] at hb
    subst hb
    intro e
    subst e
    apply hk
    obtain ⟨p, hp, hpe⟩ := List.mem_map.mp ha
    rw [List.any_eq_true]
    exact ⟨p, hp, by simpa using hpe⟩

theorem filter_nodup (l : List Str) : ∀ (k : Nat) (t : List (Str × El)), (t.map (·.1)).Nodup →
    (((l.zipIdx k).foldl filterAdd t).map (·.1)).Nodup := by
  induction l with
  | nil => intro k t h; exact h
  | cons n l ih =>
    intro k t h
    simp only [List.zipIdx_cons, List.foldl_cons]
    exact ih _ _ (dset_nodup _ _ _ (dset_nodup _ _ _ h))

theorem dget_of_mem {α β : Type} [DecidableEq α] (l : List (α × β)) (h : (l.map (·.1)).Nodup) (p : α × β)
    (hp : p ∈ l) : dget l p.1 = some p.2 := by
  induction l with
  | nil => cases hp
  | cons q l ih =>
    rw [dget_cons]
    rw [List.map_cons, List.nodup_cons] at h
    rcases List.mem_cons.mp hp with e | e
    · subst e; simp
    · have : ¬ q.1 = p.1 := fun e' => h.1 (e' ▸ List.mem_map_of_mem e)
      rw [if_neg this]
      exact ih h.2 e

/-- Of two tabs whose names agree up to a hyphen the first is unknown to the filter. -/
theorem filter_unknown (names : List Str) (i j : Nat) (n m : Str) (hi : names[i]? = some n)
    (hj : names[j]? = some m) (hij : i < j) (he : stem n = stem m) (k : Str) :
    dget (filterButtons names) k ≠ some (.button i) := by
  intro hk
  have h0 : ∀ m, dget ([] : List (Str × El)) m ≠ some (.button i) := by intro m; simp [dget_nil]
  obtain ⟨n', -, h2, h3⟩ := filter_key_of names i 0 [] h0 k hk
  rw [Nat.sub_zero, hi] at h2
  cases h2
  have hlen : j < names.length := (List.getElem?_eq_some_iff.mp hj).1
  have hsplit : names = names.take j ++ m :: names.drop (j + 1) := by
    have e : names[j] = m := (List.getElem?_eq_some_iff.mp hj).2
    have h' : names.drop j = names[j] :: names.drop (j + 1) := List.drop_eq_getElem_cons hlen
    rw [← e, ← h', List.take_append_drop]
  unfold filterButtons at hk
  rw [hsplit, List.zipIdx_append, List.foldl_append, List.zipIdx_cons, List.foldl_cons] at hk
  have hl : 0 + (names.take j).length = j := by simp; omega
  rw [hl] at hk
  refine filter_past _ i (j + 1) _ (by omega) k ?_ hk
  unfold filterAdd
  rw [key_button, ← he, ← h3, dget_dset_self]
  simp only [ne_eq, Option.some.injEq, El.button.injEq]
  omega

/-- C93 fails for two tabs whose names agree up to a hyphen: no filter ever hides the first. -/
theorem C93_filter_fails (names : List Str) (i j : Nat) (n m : Str) (hi : names[i]? = some n)
    (hj : names[j]? = some m) (hij : i < j) (he : stem n = stem m) (test : Str → Bool) (active : El → Bool) :
    hidden names test active (.button i) = false := by
  unfold hidden
  rw [List.any_eq_false]
  intro p hp hb
  simp only [Bool.and_eq_true, decide_eq_true_eq] at hb
  have := dget_of_mem _ (filter_nodup names 0 [] (by simp)) p hp
  rw [hb.1.1] at this
  exact filter_unknown names i j n m hi hj hij he _ this

/-- C93, the filter: if no name has a hyphen, a tab that no other tab shares its name with is hidden
exactly if its name does not match and it is not active. -/
theorem C93_filter_partial (names : List Str) (hp : ∀ n ∈ names, '-' ∉ n)
    (hu : ∀ n ∈ names, n ≠ undef) (i : Nat) (n : Str) (hn : names[i]? = some n)
    (ho : Once names n) (test : Str → Bool) (active : El → Bool) :
    hidden names test active (.button i) = true ↔ test n = false ∧ active (.button i) = false := by
  have hk := filter_found names hp hu i n hn ho
  have hnd := filter_nodup names 0 [] (by simp)
  unfold hidden
  rw [List.any_eq_true]
  constructor
  · rintro ⟨p, hpm, hb⟩
    simp only [Bool.and_eq_true, decide_eq_true_eq, Bool.not_eq_true'] at hb
    have hd := dget_of_mem _ hnd p hpm
    rw [hb.1.1] at hd
    obtain ⟨n', -, h2, h3⟩ := filter_key_of names i 0 [] (by intro m; simp [dget_nil]) p.1 hd
    rw [Nat.sub_zero, hn] at h2
    cases h2
    rw [stem_plain (hp n (List.mem_of_getElem? hn))] at h3
    rw [h3] at hb
    exact ⟨hb.1.2, hb.2⟩
  · rintro ⟨h1, h2⟩
    have := dget_mem hk
    exact ⟨(n, .button i), this, by simp [h1, h2]⟩

/-! ### A concrete application -/

def caseApp : App :=
  ⟨[⟨"udp1".toList, 1⟩], [⟨"sine".toList, 2⟩], [⟨"ui".toList, 3⟩], [(⟨"proc1".toList, 4⟩, ⟨"proc1.peer".toList, 5⟩)],
    none⟩

theorem C93_cases :
    caseApp.page.map (fun t => (t.ent.env, t.active)) =
      [(1, true), (2, false), (3, false), (4, false), (5, false)]
    ∧ byId (elements (caseApp.ents.map Ent.name)) "runtimepy-sine".toList = some (.content 1)
    ∧ byId (elements (caseApp.ents.map Ent.name)) "runtimepy-ui-tab".toList = some (.button 2)
    ∧ dget (filterButtons (caseApp.ents.map Ent.name)) "proc1.peer".toList = some (.button 4)
    ∧ hidden (caseApp.ents.map Ent.name) (fun n => n = "ui".toList) (fun _ => false) (.button 1) = true
    ∧ hidden (caseApp.ents.map Ent.name) (fun n => n = "ui".toList) (fun _ => false) (.button 2) = false
    ∧ hidden ["a-1".toList, "a-2".toList] (fun _ => false) (fun _ => false) (.button 0) = false
    ∧ (let apps := setup [] (createApp true App.ents) (landing true fun _ => []) ["/", "/app"] ["/"]
       (((Srv.mk [] caseApp []).run apps [.get "/app", .change ⟨[], [], [], [], none⟩, .get "/app", .get "/", .get "/x"]).answers)
         = [some caseApp.ents, some caseApp.ents, some [], none]) := by
  decide +kernel

end Verif.Pages
