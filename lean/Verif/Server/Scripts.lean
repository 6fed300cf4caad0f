import Verif.Base
/-!
C119: the scripts of the web application's page: `net/html/__init__.py` 90–164 (`write_found_file`,
`kind_url`, `append_kind`), `net/server/app/base.py` 44–73 (`populate`), `net/server/app/tab.py` 63–91
(`entry`), `net/html/bootstrap/tabs.py` 120–160 (which tab is active), `data/js/init.js` 8–17 (the worker's
program), and how a browser reads them: where a script ends (HTML standard, script data states) and what
a string literal means (ECMAScript).

Files are texts as the writer of `vcorelib` emits them, found by address. `svgen` writes the text of an
element as it is. Elements that are not scripts, style sheets and scripts loaded from elsewhere are left
out. Of escapes in literals only those of one character are kept.
-/
namespace Verif.Server.Scripts
open Verif

abbrev Str := List Char

/-! ### Files -/

/-- `kind_url`, html/__init__.py 112–124. -/
def kindUrl (kind name : Str) (subdir : Option Str) (package : Str) : Str :=
  let path := kind
  let path := match subdir with
    | some d => path ++ '/' :: d
    | none => path
  let path := path ++ '/' :: name
  ['p', 'a', 'c', 'k', 'a', 'g', 'e', ':', '/', '/'] ++ package ++ '/' :: path ++ '.' :: kind

/-- A script of the page. -/
structure Node where
  worker : Bool
  text : Str
  deriving DecidableEq

/-- `append_kind`, html/__init__.py 130–164: the element appended, if any. The loop keeps the text and the count. -/
def appendKind (find : Str → Option Str) (url : Str → Str) (names : List Str) (worker : Bool) : Option Node :=
  let r := names.foldl (fun (acc : Str × Nat) n =>
    match find (url n) with
    | some t => (acc.1 ++ t, acc.2 + 1)
    | none => acc) ([], 0)
  if r.2 ≠ 0 then some ⟨worker, r.1⟩ else none

/-! ### Tabs -/

/-- `inits.push(async () => {` and the start of the first line, tab.py 73–80. -/
def sPre : Str := "inits.push(async () => {\n  const tab = new TabInterface(".toList
/-- The rest of that line and the empty one. -/
def sMid : Str := ", worker);\n\n".toList
def sEnd : Str := "});\n".toList

/-- `Tab.entry`, tab.py 68–91. -/
def entry (find : Str → Option Str) (url : Str → Str) (name source : Str) : Node :=
  ⟨false, sPre ++ '"' :: name ++ '"' :: sMid ++ (find (url source)).getD [] ++ sEnd⟩

/-- `TabbedContent.create`, tabs.py 120–160: names with `active_tab` as it was. -/
def create (st : Bool × List (Str × Bool)) (name : Str) : Bool × List (Str × Bool) :=
  (if st.1 then false else st.1, st.2 ++ [(name, st.1)])

/-! ### The page -/

/-- What the page is made of: where files are, the classes (base.py 23–41), the tabs with their sources. -/
structure App where
  find : Str → Option Str
  plain : Str → Str
  classes : Str → Str
  tabUrl : Str → Str
  workerClasses : List Str
  uiClasses : List Str
  tabs : List (Str × Str)
  sWorker : Str
  sInit : Str
  sEvents : Str
  sUtil : Str
  sMain : Str

/-- `WebApplication.populate`, base.py 48–73. -/
def App.page (A : App) : List Node :=
  (appendKind A.find A.classes A.workerClasses true).toList ++
  (appendKind A.find A.plain [A.sWorker] true).toList ++
  (appendKind A.find A.plain [A.sInit, A.sEvents] false).toList ++
  (appendKind A.find A.classes A.uiClasses false).toList ++
  A.tabs.map (fun t => entry A.find A.tabUrl t.1 t.2) ++
  (appendKind A.find A.plain [A.sUtil, A.sMain] false).toList

/-- init.js 11–17: the worker's program, from the elements read so far (`init.js` is in the third). -/
def workerProgram (nodes : List Node) : Str := ((nodes.filter (·.worker)).map (·.text)).flatten

/-! ### How a browser reads scripts -/

def sClose : Str := ['<', '/', 's', 'c', 'r', 'i', 'p', 't', '>']
def sEndTag : Str := ['<', '/', 's', 'c', 'r', 'i', 'p', 't']
def sStartTag : Str := ['<', 's', 'c', 'r', 'i', 'p', 't']
def sComment : Str := ['<', '!', '-', '-']

/-- Whether a text begins with a lower-case pattern, ignoring case. -/
def startsCI : Str → Str → Bool
  | [], _ => true
  | _ :: _, [] => false
  | p :: ps, c :: s => (c.toLower == p) && startsCI ps s

/-- A tag's name is over. -/
def delim (c : Char) : Bool := c == '\t' || c == '\n' || c == '\x0c' || c == ' ' || c == '/' || c == '>'

/-- A tag begins here. -/
def tagHere (p s : Str) : Bool :=
  startsCI p s && (match s[p.length]? with
    | some c => delim c
    | none => false)

/-- Script data, script data escaped, script data double escaped; with the number of dashes just read. -/
inductive Mode where
  | data
  | esc (d : Nat)
  | dbl (d : Nat)
  deriving DecidableEq

def dashes (d : Nat) (c : Char) : Nat := if c = '-' then min (d + 1) 2 else 0

/-- The mode after a character. -/
def Mode.next (m : Mode) (c : Char) (r : Str) : Mode :=
  match m with
  | .data => if startsCI sComment (c :: r) then .esc 0 else .data
  | .esc d =>
    if tagHere sStartTag (c :: r) then .dbl 0
    else if c = '>' ∧ d = 2 then .data
    else .esc (dashes d c)
  | .dbl d =>
    if tagHere sEndTag (c :: r) then .esc 0
    else if c = '>' ∧ d = 2 then .data
    else .dbl (dashes d c)

/-- Whether the script ends before this text. -/
def Mode.ends (m : Mode) (s : Str) : Bool :=
  match m with
  | .dbl _ => false
  | _ => tagHere sEndTag s

/-- The script's text and what follows, from its end tag on; `none`: it never ends. -/
def scan : Mode → Str → Option (Str × Str)
  | _, [] => none
  | m, c :: r =>
    if m.ends (c :: r) then some ([], c :: r)
    else (scan (m.next c r) r).map fun x => (c :: x.1, x.2)

/-- A string literal after its opening quote: its value and what follows. -/
def literal (escape : Char → Option Char) : Str → Option (Str × Str)
  | [] => none
  | '"' :: r => some ([], r)
  | '\\' :: [] => none
  | '\\' :: c :: r => (literal escape r).map fun x => ((escape c).toList ++ x.1, x.2)
  | c :: r =>
    if c = '\n' ∨ c = '\r' then none
    else (literal escape r).map fun x => (c :: x.1, x.2)

/-! ### Theorems -/

/-- Whether a pattern occurs, ignoring case. -/
def Occurs (p s : Str) : Prop := ∃ a b, s = a ++ b ∧ startsCI p b = true

/-- A text that may stand in a script: neither an end tag nor a comment begins in it. -/
def Clean (s : Str) : Prop := ¬ Occurs "</script".toList s ∧ ¬ Occurs "<!--".toList s

theorem consts : "</script".toList = sEndTag ∧ "<!--".toList = sComment ∧ "</script>".toList = sClose ∧
    "<script".toList = sStartTag := by
  decide +kernel

theorem startsCI_append (p a b : Str) (h : startsCI p a = true) : startsCI p (a ++ b) = true := by
  induction p generalizing a with
  | nil => rfl
  | cons q p ih =>
    cases a with
    | nil => cases h
    | cons c a =>
      rw [startsCI, Bool.and_eq_true] at h
      rw [List.cons_append, startsCI, h.1, ih a h.2]
      rfl

/-- A pattern without `c` (in lower case) does not reach over `c`. -/
theorem startsCI_over (p a b : Str) (c : Char) (hc : c.toLower ∉ p) (h : startsCI p (a ++ c :: b) = true) :
    startsCI p a = true := by
  induction p generalizing a with
  | nil => rfl
  | cons q p ih =>
    cases a with
    | nil =>
      rw [List.nil_append, startsCI, Bool.and_eq_true] at h
      have : c.toLower = q := by simpa using h.1
      exact absurd (this ▸ List.mem_cons_self) hc
    | cons d a =>
      rw [List.cons_append, startsCI, Bool.and_eq_true] at h
      rw [startsCI, h.1, ih a (fun h' => hc (List.mem_cons_of_mem _ h')) h.2]
      rfl

theorem Occurs.cons_iff (p : Str) (c : Char) (s : Str) :
    Occurs p (c :: s) ↔ startsCI p (c :: s) = true ∨ Occurs p s := by
  constructor
  · rintro ⟨a, b, h1, h2⟩
    cases a with
    | nil => left; rw [h1]; exact h2
    | cons d a =>
      injection h1 with h3 h4
      exact .inr ⟨a, b, h4, h2⟩
  · rintro (h | ⟨a, b, h1, h2⟩)
    · exact ⟨[], _, rfl, h⟩
    · exact ⟨c :: a, b, by rw [h1]; rfl, h2⟩

theorem occurs_nil (p : Str) (hp : p ≠ []) : ¬ Occurs p [] := by
  rintro ⟨a, b, h1, h2⟩
  have : b = [] := (List.append_eq_nil_iff.mp h1.symm).2
  subst this
  cases p with
  | nil => exact hp rfl
  | cons q p => cases h2

theorem occurs_sep (p a b : Str) (c : Char) (hp : p ≠ []) (hc : c.toLower ∉ p) (h : Occurs p (a ++ c :: b)) :
    Occurs p a ∨ Occurs p b := by
  induction a with
  | nil =>
    rw [List.nil_append, Occurs.cons_iff] at h
    rcases h with h | h
    · have := startsCI_over p [] b c hc h
      cases p with
      | nil => exact absurd rfl hp
      | cons q p => cases this
    · exact .inr h
  | cons d a ih =>
    rw [List.cons_append, Occurs.cons_iff] at h
    rcases h with h | h
    · left
      rw [Occurs.cons_iff]
      exact .inl (startsCI_over p (d :: a) b c hc h)
    · rcases ih h with h | h
      · left; rw [Occurs.cons_iff]; exact .inr h
      · exact .inr h

theorem clean_sep (a b : Str) (c : Char) (hc : c.toLower ∉ sEndTag) (hd : c.toLower ∉ sComment) (ha : Clean a)
    (hb : Clean b) : Clean (a ++ c :: b) := by
  unfold Clean at *
  rw [consts.1, consts.2.1] at *
  constructor
  · intro h
    rcases occurs_sep _ _ _ _ (by decide) hc h with h | h
    · exact ha.1 h
    · exact hb.1 h
  · intro h
    rcases occurs_sep _ _ _ _ (by decide) hd h with h | h
    · exact ha.2 h
    · exact hb.2 h

theorem startsCI_tail (p a b : Str) (h : ∀ x ∈ p.drop 1, x ≠ '<') (ha : a ≠ []) (hs : startsCI p (a ++ '<' :: b) = true) :
    startsCI p a = true := by
  cases p with
  | nil => rfl
  | cons q p =>
    cases a with
    | nil => exact absurd rfl ha
    | cons d a =>
      rw [List.cons_append, startsCI, Bool.and_eq_true] at hs
      rw [startsCI, hs.1]
      refine startsCI_over p a b '<' ?_ hs.2
      intro hm
      exact h _ hm rfl

/-- Clean text before a `<` is read as it is. -/
theorem scan_clean (t z : Str) (h : Clean t) :
    scan .data (t ++ '<' :: z) = (scan .data ('<' :: z)).map fun x => (t ++ x.1, x.2) := by
  unfold Clean at h
  rw [consts.1, consts.2.1] at h
  induction t with
  | nil => simp
  | cons c t ih =>
    have hE : Mode.ends .data (c :: (t ++ '<' :: z)) = false := by
      have : startsCI sEndTag (c :: (t ++ '<' :: z)) = false := by
        cases hs : startsCI sEndTag (c :: (t ++ '<' :: z)) with
        | false => rfl
        | true =>
          exfalso
          have := startsCI_tail sEndTag (c :: t) _ (by decide) (by simp) hs
          exact h.1 ((Occurs.cons_iff _ _ _).mpr (.inl this))
      show tagHere _ _ = false
      unfold tagHere
      rw [this]
      rfl
    have hN : Mode.next .data c (t ++ '<' :: z) = .data := by
      have : startsCI sComment (c :: (t ++ '<' :: z)) = false := by
        cases hs : startsCI sComment (c :: (t ++ '<' :: z)) with
        | false => rfl
        | true =>
          exfalso
          have := startsCI_tail sComment (c :: t) _ (by decide) (by simp) hs
          exact h.2 ((Occurs.cons_iff _ _ _).mpr (.inl this))
      show (if _ then _ else _) = _
      rw [this]
      rfl
    rw [List.cons_append, scan, hE, hN, ih ⟨fun h' => h.1 ((Occurs.cons_iff _ _ _).mpr (.inr h')), fun h' => h.2 ((Occurs.cons_iff _ _ _).mpr (.inr h'))⟩]
    cases scan Mode.data ('<' :: z) <;> rfl

/-- C119: a clean text is read as it was written, up to the element's own end tag. -/
theorem C119_text (t rest : Str) (h : Clean t) :
    scan .data (t ++ "</script>".toList ++ rest) = some (t, "</script>".toList ++ rest) := by
  rw [consts.2.2.1]
  have e : t ++ sClose ++ rest = t ++ '<' :: (['/', 's', 'c', 'r', 'i', 'p', 't', '>'] ++ rest) := by
    rw [List.append_assoc]; rfl
  have hz : scan .data ('<' :: (['/', 's', 'c', 'r', 'i', 'p', 't', '>'] ++ rest)) = some ([], sClose ++ rest) := by
    have : Mode.ends .data ('<' :: (['/', 's', 'c', 'r', 'i', 'p', 't', '>'] ++ rest)) = true := rfl
    rw [scan, if_pos this]
    rfl
  rw [e, scan_clean t _ h, hz]
  simp

theorem scan_dbl (b z : Str) (h : ∀ c ∈ b, c ≠ '<' ∧ c ≠ '-') :
    scan (.dbl 0) (b ++ z) = (scan (.dbl 0) z).map fun x => (b ++ x.1, x.2) := by
  induction b with
  | nil => simp
  | cons c b ih =>
    obtain ⟨h1, h2⟩ := h c List.mem_cons_self
    have hN : Mode.next (.dbl 0) c (b ++ z) = .dbl 0 := by
      have ht : tagHere sEndTag (c :: (b ++ z)) = false := by
        cases hs : tagHere sEndTag (c :: (b ++ z)) with
        | false => rfl
        | true =>
          exfalso
          unfold tagHere at hs
          rw [Bool.and_eq_true] at hs
          have h3 := hs.1
          unfold sEndTag at h3
          rw [startsCI, Bool.and_eq_true] at h3
          have h4 : c.toLower = '<' := by simpa using h3.1
          apply h1
          unfold Char.toLower at h4
          split at h4
          · rename_i hu
            exfalso
            have h5 := congrArg (fun c : Char => c.val) h4
            simp only at h5
            have h6 : c.val + 32 = 60 := h5
            have h8 : (c.val.toNat + 32) % 4294967296 = 60 := by
              have := congrArg UInt32.toNat h6
              rw [UInt32.toNat_add] at this
              exact this
            have h9 : 65 ≤ c.val.toNat := UInt32.le_iff_toNat_le.mp hu.1
            have h10 : c.val.toNat ≤ 90 := UInt32.le_iff_toNat_le.mp hu.2
            omega
          · exact h4
      unfold Mode.next
      simp only [ht, dashes, if_neg h2]
      simp
    rw [List.cons_append, scan, if_neg (by intro h; cases h), hN, ih (fun d hd => h d (List.mem_cons_of_mem _ hd))]
    cases scan (Mode.dbl 0) z <;> rfl

/-- C119: a text in which a comment begins and then a script tag is not closed by its element's end tag: the script
goes on over the following part of the page. -/
theorem C119_swallows_fails (a b rest : Str) (h : Clean a) (hb : ∀ c ∈ b, c ≠ '<' ∧ c ≠ '-') :
    scan .data ((a ++ "<!--<script>".toList ++ b) ++ "</script>".toList ++ rest) =
      (scan (.esc 0) rest).map fun x => ((a ++ "<!--<script>".toList ++ b ++ "</script>".toList) ++ x.1, x.2) := by
  have e0 : "<!--<script>".toList = ['<', '!', '-', '-', '<', 's', 'c', 'r', 'i', 'p', 't', '>'] := by decide +kernel
  rw [consts.2.2.1, e0]
  have e : (a ++ ['<', '!', '-', '-', '<', 's', 'c', 'r', 'i', 'p', 't', '>'] ++ b) ++ sClose ++ rest =
      a ++ '<' :: (['!', '-', '-', '<', 's', 'c', 'r', 'i', 'p', 't', '>'] ++ (b ++ (sClose ++ rest))) := by
    simp [List.append_assoc]
  have s1 : ∀ z, scan .data ('<' :: (['!', '-', '-', '<', 's', 'c', 'r', 'i', 'p', 't', '>'] ++ z)) =
      (scan (.dbl 0) z).map fun x => (['<', '!', '-', '-', '<', 's', 'c', 'r', 'i', 'p', 't', '>'] ++ x.1, x.2) := by
    intro z
    show scan .data ('<' :: '!' :: '-' :: '-' :: '<' :: 's' :: 'c' :: 'r' :: 'i' :: 'p' :: 't' :: '>' :: z) = _
    simp [scan, Mode.ends, Mode.next, tagHere, startsCI, sEndTag, sComment, sStartTag, delim, dashes, Char.toLower, Function.comp_def]
  have s2 : ∀ z, scan (.dbl 0) (sClose ++ z) = (scan (.esc 0) z).map fun x => (sClose ++ x.1, x.2) := by
    intro z
    show scan (.dbl 0) ('<' :: '/' :: 's' :: 'c' :: 'r' :: 'i' :: 'p' :: 't' :: '>' :: z) = _
    simp [scan, Mode.ends, Mode.next, tagHere, startsCI, sEndTag, sComment, sStartTag, sClose, delim, dashes, Char.toLower, Function.comp_def]
  rw [e, scan_clean a _ h, s1, scan_dbl b _ hb, s2]
  cases scan (.esc 0) rest with
  | none => rfl
  | some x => simp [List.append_assoc]

/-- C119: a text with an end tag in it is cut there, the rest is shown on the page. -/
theorem C119_cut_fails (a b rest : Str) (h : Clean a) :
    scan .data ((a ++ "</script>".toList ++ b) ++ "</script>".toList ++ rest) =
      some (a, "</script>".toList ++ (b ++ "</script>".toList ++ rest)) := by
  have := C119_text a (b ++ "</script>".toList ++ rest) h
  rw [← this]
  simp [List.append_assoc]

/-- What a browser makes of the page's scripts: it strips the opening tag, reads the script, strips the end tag. -/
def openTag (worker : Bool) : Str :=
  if worker then "<script type=\"text/js-worker\">".toList else "<script>".toList

def render (nodes : List Node) : Str := (nodes.map fun n => openTag n.worker ++ n.text ++ "</script>".toList).flatten

/-- Scripts as a browser reads them. -/
def parse : Nat → Str → List Node
  | 0, _ => []
  | n + 1, s =>
    let r : Option (Bool × Str) :=
      if (openTag true).isPrefixOf s then some (true, s.drop (openTag true).length)
      else if (openTag false).isPrefixOf s then some (false, s.drop (openTag false).length)
      else none
    match r with
    | none => []
    | some (w, s) =>
      match scan .data s with
      | none => [⟨w, s⟩]
      | some (t, s) => ⟨w, t⟩ :: parse n (s.drop "</script>".toList.length)

/-- C119: a page of clean scripts is read by the browser exactly as it was composed: the same scripts, in the same
order, for the same thread. -/
theorem C119_read (nodes : List Node) (h : ∀ n ∈ nodes, Clean n.text) (k : Nat) :
    parse (nodes.length + k) (render nodes) = nodes := by
  induction nodes with
  | nil =>
    cases k with
    | zero => rfl
    | succ k => 
      have a : (openTag true).isPrefixOf (render []) = false := by decide +kernel
      have b : (openTag false).isPrefixOf (render []) = false := by decide +kernel
      show parse (0 + (k + 1)) _ = _
      rw [Nat.zero_add, parse, a, b]
      rfl
  | cons n l ih =>
    have e : (n :: l).length + k = (l.length + k) + 1 := by rw [List.length_cons]; omega
    have hr : render (n :: l) = openTag n.worker ++ (n.text ++ "</script>".toList ++ render l) := by
      unfold render
      rw [List.map_cons, List.flatten_cons]
      simp only [List.append_assoc]
    have hx : (if (openTag true).isPrefixOf (render (n :: l)) then
          some (true, (render (n :: l)).drop (openTag true).length)
        else if (openTag false).isPrefixOf (render (n :: l)) then
          some (false, (render (n :: l)).drop (openTag false).length)
        else none) = some (n.worker, n.text ++ "</script>".toList ++ render l) := by
      rw [hr]
      cases n.worker with
      | true =>
        rw [if_pos (List.isPrefixOf_iff_prefix.mpr (List.prefix_append _ _)), List.drop_left]
      | false =>
        rw [if_neg, if_pos (List.isPrefixOf_iff_prefix.mpr (List.prefix_append _ _)), List.drop_left]
        intro hp
        have hq := List.isPrefixOf_iff_prefix.mp hp
        obtain ⟨z, hz⟩ := hq
        have h7 := congrArg (fun s : Str => s[7]?) hz
        rw [List.getElem?_append_left (by decide +kernel), List.getElem?_append_left (by decide +kernel)] at h7
        revert h7
        decide +kernel
    rw [e, parse]
    simp only [hx]
    rw [C119_text n.text (render l) (h n List.mem_cons_self)]
    simp only [List.drop_left]
    rw [ih (fun m hm => h m (List.mem_cons_of_mem _ hm))]

/-- What a literal's value and end say about the text. -/
theorem literal_sound (escape : Char → Option Char) : ∀ (n : Nat) (s v r : Str), s.length ≤ n → literal escape s = some (v, r) →
    ∃ u, s = u ++ '"' :: r ∧ v.length ≤ u.length ∧
      (v.length = u.length → v = u ∧ ∀ c ∈ u, c ≠ '"' ∧ c ≠ '\\' ∧ c ≠ '\n' ∧ c ≠ '\r') := by
  intro n
  induction n with
  | zero =>
    intro s v r hn h
    have : s = [] := List.length_eq_zero_iff.mp (by omega)
    subst this
    cases h
  | succ n ih =>
    intro s v r hn h
    rw [literal.eq_def] at h
    split at h
    · cases h
    · rename_i r'
      injection h with h
      injection h with h1 h2
      subst h1 h2
      exact ⟨[], rfl, Nat.le_refl _, fun _ => ⟨rfl, fun c hc => absurd hc List.not_mem_nil⟩⟩
    · cases h
    · rename_i c r'
      cases hl : literal escape r' with
      | none => rw [hl] at h; cases h
      | some x =>
        rw [hl] at h
        injection h with h
        injection h with h1 h2
        obtain ⟨u, hu, hlen, -⟩ := ih r' x.1 x.2 (by simp at hn; omega) (by rw [hl])
        have hlo : (escape c).toList.length ≤ 1 := by cases escape c <;> simp
        refine ⟨'\\' :: c :: u, by rw [hu, ← h2]; rfl, ?_, ?_⟩
        · rw [← h1]; simp; omega
        · intro hh; rw [← h1] at hh; simp at hh; omega
    · rename_i c r' hq hb1 hb2
      split at h
      · cases h
      · rename_i hnl
        cases hl : literal escape r' with
        | none => rw [hl] at h; cases h
        | some x =>
          rw [hl] at h
          injection h with h
          injection h with h1 h2
          obtain ⟨u, hu, hlen, hall⟩ := ih r' x.1 x.2 (by simp at hn; omega) (by rw [hl])
          refine ⟨c :: u, by rw [hu, ← h2]; rfl, ?_, ?_⟩
          · rw [← h1]; simp; omega
          · intro hh
            rw [← h1] at hh
            obtain ⟨k1, k2⟩ := hall (by simpa using hh)
            refine ⟨by rw [← h1, k1], ?_⟩
            intro d hd
            rcases List.mem_cons.mp hd with hd | hd
            · subst hd
              refine ⟨?_, ?_, fun e => hnl (.inl e), fun e => hnl (.inr e)⟩
              · intro e; exact hq e
              · intro e
                subst e
                cases r' with
                | nil => exact hb1 rfl rfl
                | cons y ys => exact hb2 y ys rfl rfl
            · exact k2 d hd

/-- C119: the tab's object gets the tab's name exactly if the name has no quote, no backslash and no line break. -/
theorem C119_name (escape : Char → Option Char) (name rest : Str) :
    literal escape (name ++ '"' :: rest) = some (name, rest) ↔
      ∀ c ∈ name, c ≠ '"' ∧ c ≠ '\\' ∧ c ≠ '\n' ∧ c ≠ '\r' := by
  constructor
  · intro h
    obtain ⟨u, hu, -, hall⟩ := literal_sound escape _ _ _ _ (Nat.le_refl _) h
    have : name = u := List.append_cancel_right hu
    subst this
    exact (hall rfl).2
  · intro h
    induction name with
    | nil => rfl
    | cons c name ih =>
      obtain ⟨h1, h2, h3, h4⟩ := h c List.mem_cons_self
      rw [List.cons_append, literal.eq_def]
      split
      · rename_i e; cases e
      · rename_i e; injection e with e; exact absurd e h1
      · rename_i e; injection e with e; exact absurd e h2
      · rename_i e; injection e with e; exact absurd e h2
      · rename_i e
        injection e with e1 e2
        subst e1 e2
        rw [if_neg (by rintro (e | e); exact h3 e; exact h4 e), ih (fun d hd => h d (List.mem_cons_of_mem _ hd))]
        rfl

/-- C119: a name with a quote gives the tab's object another, shorter name: the part before the quote. -/
theorem C119_quote_fails (escape : Char → Option Char) (a b rest : Str)
    (ha : ∀ c ∈ a, c ≠ '"' ∧ c ≠ '\\' ∧ c ≠ '\n' ∧ c ≠ '\r') :
    literal escape ((a ++ '"' :: b) ++ '"' :: rest) = some (a, b ++ '"' :: rest) := by
  have := (C119_name escape a (b ++ '"' :: rest)).mpr ha
  rw [← this]
  simp

/-- C119: a name with a line break is no literal at all: the script does not run and the tab is not there. -/
theorem C119_break_fails (escape : Char → Option Char) (a b rest : Str) (c : Char) (hc : c = '\n' ∨ c = '\r')
    (ha : ∀ c ∈ a, c ≠ '"' ∧ c ≠ '\\' ∧ c ≠ '\n' ∧ c ≠ '\r') :
    literal escape ((a ++ c :: b) ++ '"' :: rest) = none := by
  induction a with
  | nil =>
    rcases hc with rfl | rfl
    · rfl
    · rfl
  | cons d a ih =>
    obtain ⟨h1, h2, h3, h4⟩ := ha d List.mem_cons_self
    rw [List.cons_append, List.cons_append, literal.eq_def]
    split
    · rename_i e; cases e
    · rename_i e; injection e with e; exact absurd e h1
    · rename_i e; injection e with e; exact absurd e h2
    · rename_i e; injection e with e; exact absurd e h2
    · rename_i e
      injection e with e1 e2
      subst e1 e2
      rw [if_neg (by rintro (e | e); exact h3 e; exact h4 e), ih (fun x hx => ha x (List.mem_cons_of_mem _ hx))]
      rfl

/-- C119: exactly the first tab is shown at the start. -/
theorem C119_active (names : List Str) :
    ((names.foldl create (true, [])).2.map Prod.fst = names) ∧
    ∀ i (hi : i < names.length), (names.foldl create (true, [])).2[i]? = some (names[i], decide (i = 0)) := by
  have key : ∀ (l : List Str) (acc : List (Str × Bool)), l.foldl create (false, acc) = (false, acc ++ l.map (fun n => (n, false))) := by
    intro l
    induction l with
    | nil => intro acc; simp
    | cons x l ih =>
      intro acc
      rw [List.foldl_cons]
      show l.foldl create (false, acc ++ [(x, false)]) = _
      rw [ih]
      simp
  cases names with
  | nil => exact ⟨rfl, fun i hi => absurd hi (Nat.not_lt_zero i)⟩
  | cons n l =>
    have : (n :: l).foldl create (true, []) = (false, (n, true) :: l.map (fun n => (n, false))) := by
      rw [List.foldl_cons]
      show l.foldl create (false, [] ++ [(n, true)]) = _
      rw [key]
      rfl
    rw [this]
    refine ⟨?_, ?_⟩
    · simp [Function.comp_def]
    · intro i hi
      cases i with
      | zero => rfl
      | succ i =>
        have hi' : i < l.length := by simpa using hi
        simp [hi']

theorem appendKind_eq (find : Str → Option Str) (url : Str → Str) (names : List Str) (worker : Bool) :
    appendKind find url names worker =
      if (names.filterMap (fun n => find (url n))) = [] then none
      else some ⟨worker, (names.filterMap (fun n => find (url n))).flatten⟩ := by
  have key : ∀ (l : List Str) (acc : Str × Nat), l.foldl (fun (acc : Str × Nat) n =>
      match find (url n) with
      | some t => (acc.1 ++ t, acc.2 + 1)
      | none => acc) acc = (acc.1 ++ (l.filterMap (fun n => find (url n))).flatten,
        acc.2 + (l.filterMap (fun n => find (url n))).length) := by
    intro l
    induction l with
    | nil => intro acc; simp
    | cons n l ih =>
      intro acc
      rw [List.foldl_cons, ih]
      cases hf : find (url n) with
      | none => simp [hf]
      | some t => simp [hf, List.append_assoc]; omega
  unfold appendKind
  rw [key]
  dsimp only
  rw [List.nil_append, Nat.zero_add]
  by_cases h : names.filterMap (fun n => find (url n)) = []
  · rw [if_pos h, h]
    rfl
  · rw [if_neg h, if_pos]
    intro h'
    exact h (List.length_eq_zero_iff.mp h')

/-- C119: an element is added exactly if at least one of its files is there; it holds the files that are, whole and
in the given order. -/
theorem C119_files (find : Str → Option Str) (url : Str → Str) (names : List Str) (worker : Bool) :
    ((appendKind find url names worker).isSome = true ↔ ∃ n ∈ names, ∃ t, find (url n) = some t) ∧
    ∀ node, appendKind find url names worker = some node → node.worker = worker ∧
      node.text = (names.map fun n => (find (url n)).getD []).flatten := by
  rw [appendKind_eq]
  constructor
  · by_cases h : names.filterMap (fun n => find (url n)) = []
    · rw [if_pos h]
      constructor
      · intro h'; cases h'
      · rintro ⟨n, hn, t, ht⟩
        have : t ∈ names.filterMap (fun n => find (url n)) := List.mem_filterMap.mpr ⟨n, hn, ht⟩
        rw [h] at this
        cases this
    · rw [if_neg h]
      refine ⟨fun _ => ?_, fun _ => rfl⟩
      obtain ⟨t, ht⟩ := List.exists_mem_of_ne_nil _ h
      obtain ⟨n, hn, hf⟩ := List.mem_filterMap.mp ht
      exact ⟨n, hn, t, hf⟩
  · intro node h
    split at h
    · cases h
    · injection h with h
      subst h
      refine ⟨rfl, ?_⟩
      show (names.filterMap _).flatten = _
      rename_i h'
      clear h'
      induction names with
      | nil => rfl
      | cons n l ih =>
        cases hf : find (url n) with
        | none => simp [hf]; simpa using ih
        | some t => simp [hf]; simpa using ih

/-- C119: different names are different files. -/
theorem C119_urls (kind : Str) (subdir : Option Str) (package a b : Str) :
    kindUrl kind a subdir package = kindUrl kind b subdir package ↔ a = b := by
  constructor
  · intro h
    unfold kindUrl at h
    dsimp only at h
    have h1 := List.append_cancel_right h
    have h2 := List.append_cancel_left h1
    injection h2 with _ h3
    have h4 := List.append_cancel_left h3
    injection h4
  · rintro rfl; rfl

theorem workerProgram_append (a b : List Node) : workerProgram (a ++ b) = workerProgram a ++ workerProgram b := by
  unfold workerProgram
  simp

theorem worker_append (find : Str → Option Str) (url : Str → Str) (names : List Str) :
    workerProgram (appendKind find url names true).toList = (names.map fun n => (find (url n)).getD []).flatten ∧
    workerProgram (appendKind find url names false).toList = [] := by
  constructor
  · cases h : appendKind find url names true with
    | none =>
      rw [appendKind_eq] at h
      split at h
      · rename_i e
        have : (names.map fun n => (find (url n)).getD []).flatten = [] := by
          clear h
          induction names with
          | nil => rfl
          | cons n l ih =>
            rw [List.filterMap_cons] at e
            cases hf : find (url n) with
            | none => rw [hf] at e; simp [hf]; simpa using ih e
            | some t => rw [hf] at e; cases e
        rw [this]
        rfl
      · cases h
    | some node =>
      obtain ⟨h1, h2⟩ := (C119_files find url names true).2 node h
      rw [← h2]
      show (([node].filter (·.worker)).map (·.text)).flatten = _
      simp [h1]
  · cases h : appendKind find url names false with
    | none => rfl
    | some node =>
      obtain ⟨h1, -⟩ := (C119_files find url names false).2 node h
      show (([node].filter (·.worker)).map (·.text)).flatten = _
      simp [h1]

/-- C119: the worker's program is its classes in their order, then `worker`; it is complete before any other script
runs. -/
theorem C119_worker (A : App) : ∃ W R, A.page = W ++ R ∧ (∀ n ∈ W, n.worker = true) ∧ (∀ n ∈ R, n.worker = false) ∧
    workerProgram W = (A.workerClasses.map fun n => (A.find (A.classes n)).getD []).flatten ++
      (A.find (A.plain A.sWorker)).getD [] := by
  have hw : ∀ url names w (n : Node), n ∈ (appendKind A.find url names w).toList → n.worker = w := by
    intro url names w n hn
    rw [Option.mem_toList] at hn
    exact ((C119_files A.find url names w).2 n hn).1
  refine ⟨(appendKind A.find A.classes A.workerClasses true).toList ++ (appendKind A.find A.plain [A.sWorker] true).toList,
    (appendKind A.find A.plain [A.sInit, A.sEvents] false).toList ++
      ((appendKind A.find A.classes A.uiClasses false).toList ++
      (A.tabs.map (fun t => entry A.find A.tabUrl t.1 t.2) ++
      (appendKind A.find A.plain [A.sUtil, A.sMain] false).toList)), ?_, ?_, ?_, ?_⟩
  · unfold App.page
    simp only [List.append_assoc]
  · intro n hn
    rcases List.mem_append.mp hn with hn | hn
    · exact hw _ _ _ _ hn
    · exact hw _ _ _ _ hn
  · intro n hn
    rcases List.mem_append.mp hn with hn | hn
    · exact hw _ _ _ _ hn
    rcases List.mem_append.mp hn with hn | hn
    · exact hw _ _ _ _ hn
    rcases List.mem_append.mp hn with hn | hn
    · obtain ⟨t, -, rfl⟩ := List.mem_map.mp hn
      rfl
    · exact hw _ _ _ _ hn
  · rw [workerProgram_append, (worker_append A.find A.classes A.workerClasses).1, (worker_append A.find A.plain [A.sWorker]).1]
    simp

theorem main_append (find : Str → Option Str) (url : Str → Str) (names : List Str) :
    (((appendKind find url names false).toList.filter (fun n => !n.worker)).map (·.text)).flatten =
      (names.map fun n => (find (url n)).getD []).flatten ∧
    ((appendKind find url names true).toList.filter (fun n => !n.worker)) = [] := by
  constructor
  · have h := (worker_append find url names).1
    have h2 : appendKind find url names false = (appendKind find url names true).map fun n => ⟨false, n.text⟩ := by
      rw [appendKind_eq, appendKind_eq]
      split <;> rfl
    rw [← h, h2]
    cases h3 : appendKind find url names true with
    | none => rfl
    | some node =>
      have h4 := ((C119_files find url names true).2 node h3).1
      simp [workerProgram, h4]
  · cases h3 : appendKind find url names true with
    | none => rfl
    | some node =>
      have h4 := ((C119_files find url names true).2 node h3).1
      simp [h4]

/-- C119: the main thread runs `init`, `events`, the classes in their order, one initialisation per tab in the order
of the tabs, each with the tab's own file inside, then `util` and `main`. -/
theorem C119_main (A : App) :
    ((A.page.filter (fun n => !n.worker)).map (·.text)).flatten =
      (A.find (A.plain A.sInit)).getD [] ++ (A.find (A.plain A.sEvents)).getD [] ++
      (A.uiClasses.map fun n => (A.find (A.classes n)).getD []).flatten ++
      (A.tabs.map fun t => "inits.push(async () => {\n  const tab = new TabInterface(\"".toList ++ t.1 ++
        "\", worker);\n\n".toList ++ (A.find (A.tabUrl t.2)).getD [] ++ "});\n".toList).flatten ++
      ((A.find (A.plain A.sUtil)).getD [] ++ (A.find (A.plain A.sMain)).getD []) := by
  have e1 : "inits.push(async () => {\n  const tab = new TabInterface(\"".toList = sPre ++ ['"'] := by decide +kernel
  have e2 : "\", worker);\n\n".toList = '"' :: sMid := by decide +kernel
  have e3 : "});\n".toList = sEnd := rfl
  have ht : ∀ l : List (Str × Str), (((l.map (fun t => entry A.find A.tabUrl t.1 t.2)).filter (fun n => !n.worker)).map (·.text)) =
      l.map fun t => (sPre ++ ['"']) ++ t.1 ++ ('"' :: sMid) ++ (A.find (A.tabUrl t.2)).getD [] ++ sEnd := by
    intro l
    induction l with
    | nil => rfl
    | cons t l ih =>
      rw [List.map_cons, List.filter_cons]
      simp only [entry, Bool.not_false, if_true, List.map_cons]
      simp only [entry] at ih
      rw [ih]
      simp [List.append_assoc]
  rw [e1, e2, e3]
  unfold App.page
  simp only [List.filter_append, List.map_append, List.flatten_append, (main_append A.find _ _).1, (main_append A.find _ _).2,
    List.map_nil, List.flatten_nil, List.nil_append, ht]
  simp [List.append_assoc]

/-- A file as the writer emits it: clean, and ending with a line break. -/
def Good (t : Str) : Prop := Clean t ∧ (t = [] ∨ ∃ u, t = u ++ ['\n'])

theorem clean_nil : Clean [] := by
  unfold Clean
  rw [consts.1, consts.2.1]
  exact ⟨occurs_nil _ (by decide), occurs_nil _ (by decide)⟩

theorem clean_left (a b : Str) (h : Clean (a ++ b)) : Clean a := by
  unfold Clean at *
  constructor
  · rintro ⟨x, y, h1, h2⟩
    exact h.1 ⟨x, y ++ b, by rw [h1]; simp, startsCI_append _ _ _ h2⟩
  · rintro ⟨x, y, h1, h2⟩
    exact h.2 ⟨x, y ++ b, by rw [h1]; simp, startsCI_append _ _ _ h2⟩

theorem good_append (a b : Str) (ha : Good a) (hb : Clean b) : Clean (a ++ b) := by
  rcases ha.2 with rfl | ⟨u, rfl⟩
  · exact hb
  · have := clean_sep u b '\n' (by decide) (by decide) (clean_left _ _ ha.1) hb
    simpa using this

theorem good_flatten (l : List Str) (h : ∀ t ∈ l, Good t) : Clean l.flatten := by
  induction l with
  | nil => exact clean_nil
  | cons t l ih =>
    rw [List.flatten_cons]
    exact good_append _ _ (h t List.mem_cons_self) (ih fun x hx => h x (List.mem_cons_of_mem _ hx))

theorem occursB (p s : Str) : Occurs p s ↔ (List.range (s.length + 1)).any (fun i => startsCI p (s.drop i)) = true := by
  rw [List.any_eq_true]
  constructor
  · rintro ⟨a, b, h1, h2⟩
    refine ⟨a.length, ?_, ?_⟩
    · rw [List.mem_range, h1, List.length_append]; omega
    · rw [h1, List.drop_left]; exact h2
  · rintro ⟨i, -, h2⟩
    exact ⟨s.take i, s.drop i, (List.take_append_drop i s).symm, h2⟩

/-- C119, end to end: if the files and the names of tabs are clean, the browser reads exactly the scripts composed;
and for each tab whose name has no quote, backslash or line break, the script of that tab makes an object with
that name. -/
theorem C119_page (A : App) (escape : Char → Option Char) (k : Nat) (hf : ∀ u t, A.find u = some t → Good t)
    (hn : ∀ t ∈ A.tabs, Clean t.1) :
    parse (A.page.length + k) (render A.page) = A.page ∧
    ∀ t ∈ A.tabs, (∀ c ∈ t.1, c ≠ '"' ∧ c ≠ '\\' ∧ c ≠ '\n' ∧ c ≠ '\r') → ∃ n ∈ A.page, ∃ rest,
      n.text = "inits.push(async () => {\n  const tab = new TabInterface(".toList ++ '"' :: (t.1 ++ '"' :: rest) ∧
      literal escape (t.1 ++ '"' :: rest) = some (t.1, rest) := by
  have hg : ∀ (url : Str → Str) n, Good ((A.find (url n)).getD []) := by
    intro url n
    cases h : A.find (url n) with
    | none => exact ⟨clean_nil, .inl rfl⟩
    | some t => exact hf _ _ h
  have ha : ∀ url names w (n : Node), n ∈ (appendKind A.find url names w).toList → Clean n.text := by
    intro url names w n hn
    rw [Option.mem_toList] at hn
    rw [((C119_files A.find url names w).2 n hn).2]
    apply good_flatten
    intro t ht
    obtain ⟨m, -, rfl⟩ := List.mem_map.mp ht
    exact hg url m
  constructor
  · apply C119_read
    intro n hn'
    unfold App.page at hn'
    rcases List.mem_append.mp hn' with hn' | hn'
    rotate_left
    · exact ha _ _ _ _ hn'
    rcases List.mem_append.mp hn' with hn' | hn'
    rotate_left
    · obtain ⟨t, ht, rfl⟩ := List.mem_map.mp hn'
      have c1 : Clean sPre := by
        unfold Clean
        rw [consts.1, consts.2.1, occursB, occursB]
        decide +kernel
      have c2 : Clean sMid := by
        unfold Clean
        rw [consts.1, consts.2.1, occursB, occursB]
        decide +kernel
      have c3 : Clean sEnd := by
        unfold Clean
        rw [consts.1, consts.2.1, occursB, occursB]
        decide +kernel
      have g2 : Good sMid := ⟨c2, .inr ⟨", worker);\n".toList, by decide +kernel⟩⟩
      show Clean (sPre ++ '"' :: t.1 ++ '"' :: sMid ++ (A.find (A.tabUrl t.2)).getD [] ++ sEnd)
      have e : sPre ++ '"' :: t.1 ++ '"' :: sMid ++ (A.find (A.tabUrl t.2)).getD [] ++ sEnd =
          sPre ++ '"' :: (t.1 ++ '"' :: (sMid ++ ((A.find (A.tabUrl t.2)).getD [] ++ sEnd))) := by
        simp [List.append_assoc]
      rw [e]
      refine clean_sep _ _ _ (by decide) (by decide) c1 (clean_sep _ _ _ (by decide) (by decide) (hn t ht) ?_)
      exact good_append _ _ g2 (good_append _ _ (hg _ _) c3)
    rcases List.mem_append.mp hn' with hn' | hn'
    rotate_left
    · exact ha _ _ _ _ hn'
    rcases List.mem_append.mp hn' with hn' | hn'
    rotate_left
    · exact ha _ _ _ _ hn'
    rcases List.mem_append.mp hn' with hn' | hn'
    · exact ha _ _ _ _ hn'
    · exact ha _ _ _ _ hn'
  · intro t ht hs
    refine ⟨entry A.find A.tabUrl t.1 t.2, ?_, sMid ++ (A.find (A.tabUrl t.2)).getD [] ++ sEnd, ?_, (C119_name escape _ _).mpr hs⟩
    · unfold App.page
      apply List.mem_append_left
      apply List.mem_append_right
      exact List.mem_map.mpr ⟨t, ht, rfl⟩
    · have e : ∀ (P M J E : Str), P ++ '"' :: t.1 ++ '"' :: M ++ J ++ E = P ++ '"' :: (t.1 ++ '"' :: (M ++ J ++ E)) := by
        intro P M J E
        simp [List.append_assoc]
      exact e sPre sMid _ sEnd

/-- C119: the address of a file, in full. -/
theorem C119_where (kind name package d : Str) :
    kindUrl kind name none package = "package://".toList ++ package ++ "/".toList ++ kind ++ "/".toList ++ name ++
      ".".toList ++ kind ∧
    kindUrl kind name (some d) package = "package://".toList ++ package ++ "/".toList ++ kind ++ "/".toList ++ d ++
      "/".toList ++ name ++ ".".toList ++ kind := by
  have e1 : "package://".toList = ['p', 'a', 'c', 'k', 'a', 'g', 'e', ':', '/', '/'] := by decide +kernel
  have e2 : "/".toList = ['/'] := by decide +kernel
  have e3 : ".".toList = ['.'] := by decide +kernel
  rw [e1, e2, e3]
  unfold kindUrl
  constructor <;> simp [List.append_assoc]

theorem startsCI_split (p s : Str) (h : startsCI p s = true) : (s.take p.length).map Char.toLower = p := by
  induction p generalizing s with
  | nil => rfl
  | cons q p ih =>
    cases s with
    | nil => cases h
    | cons c s =>
      rw [startsCI, Bool.and_eq_true] at h
      have : c.toLower = q := by simpa using h.1
      simp [this, ih s h.2]

/-- C119: nothing of a script is lost or changed, and it ends only at an end tag: the name `script` in any case,
followed by white space, a slash or a closing bracket. -/
theorem C119_ends (m : Mode) (s t r : Str) (h : scan m s = some (t, r)) : s = t ++ r ∧
    ∃ e c z, r = e ++ c :: z ∧ e.map Char.toLower = "</script".toList ∧
      c ∈ ['\t', '\n', '\x0c', ' ', '/', '>'] := by
  induction s generalizing m t with
  | nil => cases h
  | cons x s ih =>
    rw [scan] at h
    split at h
    · rename_i he
      injection h with h
      injection h with h1 h2
      subst h1 h2
      refine ⟨rfl, ?_⟩
      have ht : tagHere sEndTag (x :: s) = true := by
        cases m with
        | data => exact he
        | esc d => exact he
        | dbl d => cases he
      unfold tagHere at ht
      rw [Bool.and_eq_true] at ht
      cases hc : (x :: s)[sEndTag.length]? with
      | none => rw [hc] at ht; exact absurd ht.2 (by decide)
      | some c =>
        rw [hc] at ht
        obtain ⟨hl, hg⟩ := List.getElem?_eq_some_iff.mp hc
        refine ⟨(x :: s).take sEndTag.length, c, (x :: s).drop (sEndTag.length + 1), ?_, ?_, ?_⟩
        · rw [← hg, List.getElem_cons_drop, List.take_append_drop]
        · rw [startsCI_split _ _ ht.1, consts.1]
        · have h3 : delim c = true := ht.2
          unfold delim at h3
          simp only [Bool.or_eq_true, beq_iff_eq] at h3
          simp only [List.mem_cons, List.not_mem_nil, or_false]
          rcases h3 with ((((h3 | h3) | h3) | h3) | h3) | h3 <;> simp [h3]
    · cases hs : scan (m.next x s) s with
      | none => rw [hs] at h; cases h
      | some y =>
        rw [hs] at h
        injection h with h
        injection h with h1 h2
        obtain ⟨h3, h4⟩ := ih _ y.1 (by rw [hs, ← h2])
        exact ⟨by rw [← h1, List.cons_append, ← h3], h4⟩

/-! ### Cases -/

def exEscape : Char → Option Char := fun c => if c = 'n' then some '\n' else some c

theorem C119_cases :
    scan .data "a < b; \"x\"</script><p>".toList = some ("a < b; \"x\"".toList, "</script><p>".toList) ∧
    scan .data "x</SCRIPT >y</script>".toList = some ("x".toList, "</SCRIPT >y</script>".toList) ∧
    scan .data "<!--<script></script></script>z".toList = some ("<!--<script></script>".toList, "</script>z".toList) ∧
    scan .data "<!--><script></script>z".toList = some ("<!--><script>".toList, "</script>z".toList) ∧
    scan .data "x</scripts>y".toList = none ∧
    literal exEscape "a\\nb\", x".toList = some ("a\nb".toList, ", x".toList) ∧
    kindUrl "js".toList "App".toList (some "classes".toList) "runtimepy".toList =
      "package://runtimepy/js/classes/App.js".toList ∧
    kindUrl "css".toList "main".toList none "runtimepy".toList = "package://runtimepy/css/main.css".toList ∧
    (["a".toList, "b".toList].foldl create (true, [])).2 = [("a".toList, true), ("b".toList, false)] := by
  decide +kernel

end Verif.Server.Scripts
