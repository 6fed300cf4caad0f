import Verif.Base
/-!
C115: log messages and other messages on their way to the tabs of a page: `net/server/websocket/state.py` 39–107,
`net/server/websocket/__init__.py` 84–111 and 145–157, `net/server/app/env/tab/message.py` 40–86,
`mixins/logging.py` 32–66, `data/js/classes/TabInterface.js` 62–79, 330–421, with loggers as in CPython's `logging`.

A logger is named by its parts, the last one first, so that the loggers above it are the tails of the list; `[]` is
the root. Level 0 is `NOTSET`. No logger stops propagation, handlers have no level of their own, and nothing happens
on a closed connection but the delivery of what was sent before. `ListLogger` of `vcorelib` keeps the records in order until they are
drained; a record is the text it is formatted to. The messages of a connection arrive in order. The box of a tab is
kept as its lines.
-/
namespace Verif.Logs

abbrev Path := List String

/-- `Logger.getEffectiveLevel`: the first level that is set on the way to the root. -/
def eff (level : Path → Nat) : Path → Nat
  | [] => level []
  | x :: p => if level (x :: p) = 0 then eff level p else level (x :: p)

/-- The loggers whose handlers see a record, `Logger.callHandlers`. -/
def above : Path → List Path
  | [] => [[]]
  | x :: p => (x :: p) :: above p

/-- A handler is the `tab_logger` of a tab of a connection. -/
abbrev Handler := Nat × Nat

structure Srv where
  level : Path → Nat
  handlers : Path → List Handler
  loggers : Handler → List Path
  buf : Handler → List String
  wire : Nat → List (List (Nat × List String))
  box : Handler → List String
  closed : Nat → Bool

def Srv.init (level : Path → Nat) : Srv :=
  ⟨level, fun _ => [], fun _ => [], fun _ => [], fun _ => [], fun _ => [], fun _ => false⟩

/-- `ListLogger.emit`. -/
def emit (b : Handler → List String) (r : String) (h : Handler) : Handler → List String :=
  fun x => if x = h then b x ++ [r] else b x

/-- `Logger.log`. -/
def Srv.log (s : Srv) (p : Path) (lvl : Nat) (r : String) : Srv :=
  if eff s.level p ≤ lvl then
    { s with buf := ((above p).flatMap s.handlers).foldl (fun b h => emit b r h) s.buf }
  else s

/-- `Logger.addHandler`: not twice. -/
def Srv.addHandler (s : Srv) (p : Path) (h : Handler) : Srv :=
  { s with handlers := fun q => if q = p then (if h ∈ s.handlers q then s.handlers q else s.handlers q ++ [h])
    else s.handlers q }

/-- `add_logger`, state.py 79–84. -/
def Srv.addLogger (s : Srv) (p : Path) (h : Handler) : Srv :=
  if p ∈ s.loggers h then s
  else
    let s := s.addHandler p h
    { s with loggers := fun x => if x = h then s.loggers x ++ [p] else s.loggers x }

/-- The message of `handle_init`. -/
def started : String := "Tab initialized."

/-- `handle_init`, message.py 79–86: `DEBUG` is 10. -/
def Srv.initTab (logger : Nat → Path) (s : Srv) (c t : Nat) : Srv :=
  if s.closed c then s else (s.addLogger (logger t) (c, t)).log (logger t) 10 started

/-- A change of the channel `log_level`, mixins/logging.py 35–39. -/
def Srv.setLevel (s : Srv) (p : Path) (n : Nat) : Srv :=
  let s := { s with level := fun q => if q = p then n else s.level q }
  s.log p n s!"Log level updated to {n}."

/-- The part of a frame for one tab, state.py 39–57. -/
def Srv.part (s : Srv) (c t : Nat) : Option (Nat × List String) :=
  if s.buf (c, t) = [] then none else some (t, s.buf (c, t))

/-- A frame, websocket/__init__.py 94–98. -/
def Srv.frame (tabs : List Nat) (s : Srv) (c : Nat) : Srv :=
  if s.closed c then s else
  { s with
    wire := fun d => if d = c then s.wire d ++ [tabs.filterMap (s.part c)] else s.wire d
    buf := fun h => if h.1 = c ∧ h.2 ∈ tabs then [] else s.buf h }

/-- The lines for one tab of a message. -/
def lines (t : Nat) (m : List (Nat × List String)) : List String :=
  (m.filter (fun x => x.1 = t)).flatMap Prod.snd

/-- The page takes the next message, App.js 46–52 and `log`, TabInterface.js 331–338. -/
def Srv.deliver (s : Srv) (c : Nat) : Srv :=
  match s.wire c with
  | [] => s
  | m :: ms =>
    { s with
      wire := fun d => if d = c then ms else s.wire d
      box := fun h => if h.1 = c then s.box h ++ lines h.2 m else s.box h }

/-- `clearLog`, TabInterface.js 340–345, for `cls` and `clear`, 69–71. -/
def Srv.cls (s : Srv) (c t : Nat) : Srv := { s with box := fun h => if h = (c, t) then [] else s.box h }

/-- `clear_loggers` of every tab, state.py 66–77 and websocket/__init__.py 145–150. -/
def Srv.close (s : Srv) (c : Nat) : Srv :=
  { s with
    handlers := fun p => (s.handlers p).filter (fun h => ¬ (h.1 = c ∧ p ∈ s.loggers h))
    loggers := fun h => if h.1 = c then [] else s.loggers h
    buf := fun h => if h.1 = c then [] else s.buf h
    closed := fun d => if d = c then true else s.closed d }

inductive Op where
  | init (c t : Nat)
  | log (p : Path) (lvl : Nat) (r : String)
  | setLevel (p : Path) (n : Nat)
  | frame (c : Nat)
  | deliver (c : Nat)
  | cls (c t : Nat)
  | close (c : Nat)

def Srv.step (logger : Nat → Path) (tabs : List Nat) (s : Srv) : Op → Srv
  | .init c t => s.initTab logger c t
  | .log p lvl r => s.log p lvl r
  | .setLevel p n => s.setLevel p n
  | .frame c => s.frame tabs c
  | .deliver c => s.deliver c
  | .cls c t => s.cls c t
  | .close c => s.close c

def Srv.run (logger : Nat → Path) (tabs : List Nat) (s : Srv) (os : List Op) : Srv :=
  os.foldl (Srv.step logger tabs) s

/-! ### What is due -/

/-- What should arrive: levels as set, which tabs follow the log, the records each is due, and how often it was
cleared. -/
structure Due where
  level : Path → Nat
  on : Handler → Bool
  due : Handler → List String
  clears : Handler → Nat
  closed : Nat → Bool

def Due.init (level : Path → Nat) : Due := ⟨level, fun _ => false, fun _ => [], fun _ => 0, fun _ => false⟩

/-- A record is due at every tab that follows a logger it passes. -/
def Due.log (logger : Nat → Path) (d : Due) (p : Path) (lvl : Nat) (r : String) : Due :=
  { d with due := fun h => if eff d.level p ≤ lvl ∧ d.on h ∧ logger h.2 <:+ p then d.due h ++ [r] else d.due h }

def Due.step (logger : Nat → Path) (d : Due) : Op → Due
  | .init c t =>
    if d.closed c then d
    else { d with on := fun h => if h = (c, t) then true else d.on h }.log logger (logger t) 10 started
  | .log p lvl r => d.log logger p lvl r
  | .setLevel p n =>
    { d with level := fun q => if q = p then n else d.level q }.log logger p n s!"Log level updated to {n}."
  | .frame _ => d
  | .deliver _ => d
  | .cls c t => { d with clears := fun h => if h = (c, t) then d.clears h + 1 else d.clears h }
  | .close c =>
    { d with on := fun h => if h.1 = c then false else d.on h, closed := fun x => if x = c then true else d.closed x }

def Due.run (logger : Nat → Path) (d : Due) (os : List Op) : Due := os.foldl (Due.step logger) d

/-! ### Proofs -/

/-- A record is taken exactly if the nearest level set above allows it. -/
theorem eff_spec (level : Path → Nat) (p : Path) :
    (∃ q, q <:+ p ∧ level q = eff level p ∧ ∀ r, r <:+ p → q.length < r.length → level r = 0) ∧
    (eff level p = 0 → ∀ q, q <:+ p → level q = 0) := by
  induction p with
  | nil => exact ⟨⟨[], by simp, rfl, by simp⟩, fun h q hq => by simp at hq; subst hq; exact h⟩
  | cons x p ih =>
    obtain ⟨⟨q, h1, h2, h3⟩, h4⟩ := ih
    unfold eff
    split
    · next e =>
      refine ⟨⟨q, h1.trans (List.suffix_cons x p), h2, fun r hr hl => ?_⟩, fun h r hr => ?_⟩
      · rcases List.suffix_cons_iff.mp hr with rfl | hr
        · exact e
        · exact h3 r hr hl
      · rcases List.suffix_cons_iff.mp hr with rfl | hr
        · exact e
        · exact h4 h r hr
    · next e =>
      refine ⟨⟨x :: p, List.suffix_refl _, rfl, fun r hr hl => ?_⟩, fun h => absurd h e⟩
      have := hr.length_le
      omega

/-- A message of a level passes a logger exactly if no level at or above it is set, or the nearest one set is not
greater. -/
theorem C115_level (level : Path → Nat) (p : Path) (n : Nat) :
    eff level p ≤ n ↔
      (∀ q, q <:+ p → level q = 0) ∨
      ∃ q, q <:+ p ∧ level q ≠ 0 ∧ (∀ r, r <:+ p → q.length < r.length → level r = 0) ∧ level q ≤ n := by
  obtain ⟨⟨q, h1, h2, h3⟩, h4⟩ := eff_spec level p
  constructor
  · intro h
    by_cases e : eff level p = 0
    · exact .inl (h4 e)
    · exact .inr ⟨q, h1, by rwa [h2], h3, by rwa [h2]⟩
  · rintro (h | ⟨r, r1, r2, r3, r4⟩)
    · rw [← h2, h q h1]
      exact Nat.zero_le _
    · rcases Nat.lt_trichotomy q.length r.length with hl | hl | hl
      · exact absurd (h3 r r1 hl) r2
      · have : q = r := by
          obtain ⟨u, hu⟩ := h1
          obtain ⟨v, hv⟩ := r1
          exact (List.append_inj' (hu.trans hv.symm) hl).2
        rw [← h2, this]
        exact r4
      · rw [← h2, r3 q h1 hl]
        exact Nat.zero_le _

theorem mem_above (p q : Path) : q ∈ above p ↔ q <:+ p := by
  induction p with
  | nil => simp [above]
  | cons x p ih => simp [above, ih, List.suffix_cons_iff]

theorem foldl_emit (hs : List Handler) (b : Handler → List String) (r : String) (x : Handler) :
    (hs.foldl (fun b h => emit b r h) b) x = b x ++ List.replicate (hs.count x) r := by
  induction hs generalizing b with
  | nil => simp
  | cons h hs ih =>
    rw [List.foldl_cons, ih, List.count_cons]
    unfold emit
    by_cases e : x = h
    · subst e
      simp [List.replicate_succ]
    · have : (h == x) = false := by simpa using fun y => e y.symm
      simp [e, this]

theorem count_above (hd : Path → List Handler) (x : Handler) (q : Path) (on : Prop) [Decidable on]
    (h : ∀ p, (hd p).count x = if on ∧ p = q then 1 else 0) (p : Path) :
    ((above p).flatMap hd).count x = if on ∧ q <:+ p then 1 else 0 := by
  induction p with
  | nil =>
    simp only [above, List.flatMap_cons, List.flatMap_nil, List.append_nil, h, List.suffix_nil]
    by_cases e : q = []
    · simp [e]
    · simp [e, Ne.symm e]
  | cons a p ih =>
    simp only [above, List.flatMap_cons, List.count_append, h, ih, List.suffix_cons_iff]
    by_cases e : a :: p = q
    · have : ¬ q <:+ p := fun hq => by
        have := hq.length_le
        rw [← e] at this
        simp at this
        omega
      subst e
      simp [this]
    · simp [e, Ne.symm e]

/-- The lines on the wire for a tab. -/
def Srv.inflight (s : Srv) (h : Handler) : List String := (s.wire h.1).flatMap (lines h.2)

structure Inv (logger : Nat → Path) (tabs : List Nat) (s : Srv) (d : Due) : Prop where
  level : s.level = d.level
  closed : s.closed = d.closed
  off : ∀ h, d.closed h.1 = true → d.on h = false
  loggers : ∀ h, s.loggers h = if d.on h then [logger h.2] else []
  handlers : ∀ h p, (s.handlers p).count h = if d.on h = true ∧ p = logger h.2 then 1 else 0
  sum : ∀ h, h.2 ∈ tabs → d.closed h.1 = false →
    ∃ gone, (d.clears h = 0 → gone = []) ∧ d.due h = gone ++ s.box h ++ s.inflight h ++ s.buf h
  empty : ∀ h, d.closed h.1 = true → s.buf h = []

theorem log_buf {logger : Nat → Path} {tabs : List Nat} {s : Srv} {d : Due} (i : Inv logger tabs s d) (p : Path)
    (lvl : Nat) (r : String) (h : Handler) :
    (s.log p lvl r).buf h = s.buf h ++ (if eff d.level p ≤ lvl ∧ d.on h ∧ logger h.2 <:+ p then [r] else []) := by
  unfold Srv.log
  rw [i.level]
  by_cases e : eff d.level p ≤ lvl
  · rw [if_pos e]
    dsimp only
    rw [foldl_emit, count_above s.handlers h (logger h.2) (d.on h = true) (i.handlers h) p]
    by_cases g : d.on h = true ∧ logger h.2 <:+ p
    · rw [if_pos g, if_pos ⟨e, g⟩]
      rfl
    · rw [if_neg g, if_neg (fun x => g x.2)]
      rfl
  · rw [if_neg e, if_neg (fun x => e x.1)]
    simp

theorem log_rest (s : Srv) (p : Path) (lvl : Nat) (r : String) :
    (s.log p lvl r).level = s.level ∧ (s.log p lvl r).handlers = s.handlers ∧ (s.log p lvl r).loggers = s.loggers ∧
    (s.log p lvl r).wire = s.wire ∧ (s.log p lvl r).box = s.box ∧ (s.log p lvl r).closed = s.closed := by
  unfold Srv.log
  split <;> exact ⟨rfl, rfl, rfl, rfl, rfl, rfl⟩

theorem inv_log {logger : Nat → Path} {tabs : List Nat} {s : Srv} {d : Due} (i : Inv logger tabs s d) (p : Path)
    (lvl : Nat) (r : String) : Inv logger tabs (s.log p lvl r) (d.log logger p lvl r) := by
  obtain ⟨h1, h2, h3, h4, h5, h6⟩ := log_rest s p lvl r
  refine ⟨by rw [h1]; exact i.level, by rw [h6]; exact i.closed, i.off, fun h => by rw [h3]; exact i.loggers h,
    fun h q => by rw [h2]; exact i.handlers h q, fun h ht hc => ?_, fun h hc => ?_⟩
  · obtain ⟨gone, g1, g2⟩ := i.sum h ht hc
    refine ⟨gone, g1, ?_⟩
    rw [log_buf i, h5]
    unfold Srv.inflight at *
    rw [h4]
    dsimp only [Due.log]
    split
    · rw [g2, List.append_assoc _ (s.buf h)]
    · rw [g2, List.append_nil]
  · rw [log_buf i, i.empty h hc]
    have : d.on h = false := i.off h hc
    simp [this]

theorem inv_add {logger : Nat → Path} {tabs : List Nat} {s : Srv} {d : Due} (i : Inv logger tabs s d) (c t : Nat)
    (hc : d.closed c = false) :
    Inv logger tabs (s.addLogger (logger t) (c, t)) { d with on := fun h => if h = (c, t) then true else d.on h } := by
  have hl := i.loggers (c, t)
  unfold Srv.addLogger
  by_cases e : d.on (c, t) = true
  · rw [e] at hl
    rw [if_pos (by rw [hl]; simp)]
    have : (fun h => if h = (c, t) then true else d.on h) = d.on := by
      funext h
      split
      · next x => rw [x, e]
      · rfl
    rw [this]
    exact i
  · have e' : d.on (c, t) = false := by simpa using e
    rw [e'] at hl
    rw [if_neg (by rw [hl]; simp)]
    refine ⟨i.level, i.closed, fun h hh => ?_, fun h => ?_, fun h p => ?_, i.sum, i.empty⟩
    · dsimp only
      rw [if_neg (fun x => by
        dsimp only at hh
        rw [x] at hh
        dsimp only at hh
        rw [hc] at hh
        cases hh)]
      exact i.off h hh
    · dsimp only [Srv.addHandler]
      by_cases x : h = (c, t)
      · subst x
        simp [hl]
      · simp only [if_neg x]
        exact i.loggers h
    · dsimp only [Srv.addHandler]
      have hn : (c, t) ∉ s.handlers (logger t) := by
        rw [← List.count_eq_zero, i.handlers]
        simp [e']
      by_cases hp : p = logger t
      · subst hp
        rw [if_pos rfl, if_neg hn, List.count_append, i.handlers]
        by_cases x : h = (c, t)
        · subst x
          simp [e']
        · have : ((c, t) == h) = false := by simpa using fun y => x y.symm
          simp [x, this, List.count_cons]
      · rw [if_neg hp, i.handlers]
        by_cases x : h = (c, t)
        · subst x
          simp [hp]
        · simp [x]

theorem inv_step {logger : Nat → Path} {tabs : List Nat} (nd : tabs.Nodup) {s : Srv} {d : Due} (i : Inv logger tabs s d)
    (o : Op) : Inv logger tabs (s.step logger tabs o) (d.step logger o) := by
  cases o with
  | init c t =>
    simp only [Srv.step, Due.step, Srv.initTab]
    rw [i.closed]
    split
    · exact i
    · next h => exact inv_log (inv_add i c t (by simpa using h)) _ _ _
  | log p lvl r => exact inv_log i p lvl r
  | setLevel p n =>
    simp only [Srv.step, Due.step, Srv.setLevel]
    have j : Inv logger tabs { s with level := fun q => if q = p then n else s.level q }
        { d with level := fun q => if q = p then n else d.level q } :=
      ⟨by dsimp only; rw [i.level], i.closed, i.off, i.loggers, i.handlers, i.sum, i.empty⟩
    exact inv_log j _ _ _
  | frame c =>
    simp only [Srv.step, Due.step, Srv.frame]
    split
    · exact i
    refine ⟨i.level, i.closed, i.off, i.loggers, i.handlers, fun h ht hc => ?_, fun h hc => ?_⟩
    · obtain ⟨gone, g1, g2⟩ := i.sum h ht hc
      refine ⟨gone, g1, ?_⟩
      unfold Srv.inflight at *
      dsimp only
      by_cases e : h.1 = c
      · rw [if_pos e, if_pos ⟨e, ht⟩, List.flatMap_append, g2]
        have : lines h.2 (tabs.filterMap (s.part c)) = s.buf h := by
          subst e
          clear g2
          induction tabs with
          | nil => cases ht
          | cons u us ih =>
            have hu : u ∉ us := (List.nodup_cons.mp nd).1
            have rest : ∀ v, v ∉ us → lines v (us.filterMap (s.part h.1)) = [] := by
              intro v hv
              unfold lines
              rw [List.filter_eq_nil_iff.mpr ?_]
              · rfl
              · intro x hx
                obtain ⟨w, hw, hx⟩ := List.mem_filterMap.mp hx
                unfold Srv.part at hx
                split at hx
                · cases hx
                · cases hx
                  simp only [decide_eq_true_eq]
                  rintro rfl
                  exact hv hw
            rw [List.filterMap_cons]
            by_cases hhu : h.2 = u
            · subst hhu
              by_cases hb : s.buf h = []
              · have : s.part h.1 h.2 = none := by unfold Srv.part; rw [if_pos hb]
                rw [this, hb]
                exact rest _ hu
              · have : s.part h.1 h.2 = some (h.2, s.buf h) := by unfold Srv.part; rw [if_neg hb]
                rw [this]
                have := rest _ hu
                unfold lines at *
                simp [this]
            · have ht' : h.2 ∈ us := by simpa [hhu] using ht
              have key : lines h.2 (us.filterMap (s.part h.1)) = s.buf h := by
                refine ih (List.nodup_cons.mp nd).2 ⟨i.level, i.closed, i.off, i.loggers, i.handlers,
                  fun x hx => i.sum x (by simp [hx]), i.empty⟩ ht'
              cases hp : s.part h.1 u with
              | none => exact key
              | some x =>
                have hx : x.1 = u := by
                  unfold Srv.part at hp
                  split at hp
                  · cases hp
                  · cases hp
                    rfl
                unfold lines at *
                rw [List.filter_cons, if_neg (by simpa [hx] using fun y => hhu y.symm)]
                exact key
        simp [this]
      · rw [if_neg e, if_neg (fun x => e x.1)]
        exact g2
    · dsimp only
      split
      · rfl
      · exact i.empty h hc
  | deliver c =>
    simp only [Srv.step, Due.step, Srv.deliver]
    cases hw : s.wire c with
    | nil => exact i
    | cons m ms =>
      dsimp only
      refine ⟨i.level, i.closed, i.off, i.loggers, i.handlers, fun h ht hc => ?_, i.empty⟩
      obtain ⟨gone, g1, g2⟩ := i.sum h ht hc
      refine ⟨gone, g1, ?_⟩
      unfold Srv.inflight at *
      dsimp only
      by_cases e : h.1 = c
      · rw [if_pos e, if_pos e]
        rw [e, hw, List.flatMap_cons] at g2
        rw [g2]
        simp
      · rw [if_neg e, if_neg e]
        exact g2
  | cls c t =>
    simp only [Srv.step, Due.step, Srv.cls]
    refine ⟨i.level, i.closed, i.off, i.loggers, i.handlers, fun h ht hc => ?_, i.empty⟩
    obtain ⟨gone, g1, g2⟩ := i.sum h ht hc
    by_cases e : h = (c, t)
    · refine ⟨gone ++ s.box h, fun x => ?_, ?_⟩
      · dsimp only at x
        rw [if_pos e] at x
        omega
      · dsimp only
        rw [if_pos e, List.append_nil]
        exact g2
    · refine ⟨gone, fun x => ?_, ?_⟩
      · dsimp only at x
        rw [if_neg e] at x
        exact g1 x
      · dsimp only
        rw [if_neg e]
        exact g2
  | close c =>
    simp only [Srv.step, Due.step, Srv.close]
    refine ⟨i.level, by dsimp only; rw [i.closed], fun h hh => ?_, fun h => ?_, fun h p => ?_, fun h ht hc => ?_,
      fun h hh => ?_⟩
    · dsimp only at hh ⊢
      split
      · rfl
      · next e => rw [if_neg e] at hh; exact i.off h hh
    · dsimp only
      by_cases e : h.1 = c
      · simp [e]
      · simp only [if_neg e]
        exact i.loggers h
    · dsimp only
      by_cases e : h.1 = c
      · simp only [if_pos e, Bool.false_eq_true, false_and, if_false]
        rw [List.count_eq_zero]
        intro hm
        obtain ⟨m1, m2⟩ := List.mem_filter.mp hm
        have hcnt : (s.handlers p).count h ≠ 0 := fun x => List.count_eq_zero.mp x m1
        rw [i.handlers] at hcnt
        split at hcnt
        · next x =>
          simp only [decide_eq_true_eq] at m2
          refine m2 ⟨e, ?_⟩
          rw [i.loggers, x.1, x.2]
          simp
        · exact hcnt rfl
      · simp only [if_neg e]
        rw [← i.handlers h p, List.count_filter]
        simp [e]
    · have hne : h.1 ≠ c := fun e => by
        dsimp only at hc
        rw [if_pos e] at hc
        cases hc
      dsimp only at hc ⊢
      rw [if_neg hne] at hc
      rw [if_neg hne]
      exact i.sum h ht hc
    · dsimp only at hh ⊢
      split
      · rfl
      · next e => rw [if_neg e] at hh; exact i.empty h hh

theorem inv_run {logger : Nat → Path} {tabs : List Nat} (nd : tabs.Nodup) (os : List Op) {s : Srv} {d : Due}
    (i : Inv logger tabs s d) : Inv logger tabs (s.run logger tabs os) (d.run logger os) := by
  induction os generalizing s d with
  | nil => exact i
  | cons o os ih => exact ih (inv_step nd i o)

theorem inv_init (logger : Nat → Path) (tabs : List Nat) (level : Path → Nat) :
    Inv logger tabs (.init level) (.init level) :=
  ⟨rfl, rfl, fun _ _ => rfl, fun _ => rfl, fun _ _ => by simp [Srv.init, Due.init],
    fun _ _ _ => ⟨[], fun _ => rfl, rfl⟩, fun _ _ => rfl⟩

/-- On every open connection, every record due at a tab is, exactly once and in order, in its box, on the way or
waiting for the next frame, but for lines cleared by the user. -/
theorem C115_log (logger : Nat → Path) (tabs : List Nat) (nd : tabs.Nodup) (level : Path → Nat) (os : List Op)
    (c t : Nat) (ht : t ∈ tabs) (hc : ((Due.init level).run logger os).closed c = false) :
    ∃ gone, (((Due.init level).run logger os).clears (c, t) = 0 → gone = []) ∧
      ((Due.init level).run logger os).due (c, t) =
        gone ++ ((Srv.init level).run logger tabs os).box (c, t) ++
        (((Srv.init level).run logger tabs os).wire c).flatMap (lines t) ++
        ((Srv.init level).run logger tabs os).buf (c, t) :=
  (inv_run nd os (inv_init logger tabs level)).sum (c, t) ht hc

theorem deliver_all (logger : Nat → Path) (tabs : List Nat) (c : Nat) (n : Nat) (s : Srv) (h : (s.wire c).length = n) :
    (s.run logger tabs (List.replicate n (.deliver c))).wire c = [] ∧
    (s.run logger tabs (List.replicate n (.deliver c))).buf = s.buf := by
  induction n generalizing s with
  | zero => exact ⟨List.length_eq_zero_iff.mp h, rfl⟩
  | succ n ih =>
    cases hw : s.wire c with
    | nil => rw [hw] at h; cases h
    | cons m ms =>
      rw [hw] at h
      have e : (s.step logger tabs (.deliver c)).wire c = ms ∧ (s.step logger tabs (.deliver c)).buf = s.buf := by
        simp [Srv.step, Srv.deliver, hw]
      obtain ⟨i1, i2⟩ := ih (s.step logger tabs (.deliver c)) (by rw [e.1]; simpa using h)
      exact ⟨i1, i2.trans e.2⟩

theorem due_deliver (logger : Nat → Path) (c n : Nat) (d : Due) :
    d.run logger (List.replicate n (.deliver c)) = d := by
  induction n with
  | zero => rfl
  | succ n ih => exact ih

/-- One more frame, and what is on the way taken in: the box shows every record that was due, each once and in
order. -/
theorem C115_arrives (logger : Nat → Path) (tabs : List Nat) (nd : tabs.Nodup) (level : Path → Nat) (os : List Op)
    (c t : Nat) (ht : t ∈ tabs) (hc : ((Due.init level).run logger os).closed c = false)
    (h0 : ((Due.init level).run logger os).clears (c, t) = 0) :
    ((Srv.init level).run logger tabs (os ++ .frame c ::
      List.replicate ((((Srv.init level).run logger tabs os).wire c).length + 1) (.deliver c))).box (c, t) =
    ((Due.init level).run logger os).due (c, t) := by
  have i := inv_run nd os (inv_init logger tabs level)
  generalize hd : (Due.init level).run logger os = d at *
  have hs : (Srv.init level).run logger tabs (os ++ .frame c ::
      List.replicate ((((Srv.init level).run logger tabs os).wire c).length + 1) (.deliver c)) =
      (((Srv.init level).run logger tabs os).step logger tabs (.frame c)).run logger tabs
        (List.replicate ((((Srv.init level).run logger tabs os).wire c).length + 1) (.deliver c)) := by
    unfold Srv.run
    rw [List.foldl_append, List.foldl_cons]
  rw [hs]
  generalize (Srv.init level).run logger tabs os = s at *
  have i1 := inv_step nd i (.frame c)
  have hcl : s.closed c = false := by rw [i.closed]; exact hc
  have f1 : ((s.step logger tabs (.frame c)).wire c).length = (s.wire c).length + 1 := by
    simp [Srv.step, Srv.frame, hcl]
  have f2 : (s.step logger tabs (.frame c)).buf (c, t) = [] := by simp [Srv.step, Srv.frame, hcl, ht]
  obtain ⟨w1, w2⟩ := deliver_all logger tabs c _ _ f1
  have i2 := inv_run nd (List.replicate ((s.wire c).length + 1) (.deliver c)) i1
  rw [due_deliver] at i2
  obtain ⟨gone, g1, g2⟩ := i2.sum (c, t) ht hc
  rw [g1 h0] at g2
  unfold Srv.inflight at g2
  dsimp only at g2
  rw [w1, w2, f2] at g2
  simpa [Due.step] using g2.symm

/-- A tab starting to follow its logger a second time gets no record twice: its handler is at its own logger only, and
there once; a tab that does not follow has none. -/
theorem C115_once (logger : Nat → Path) (tabs : List Nat) (nd : tabs.Nodup) (level : Path → Nat) (os : List Op)
    (h : Handler) (p : Path) :
    (((Srv.init level).run logger tabs os).handlers p).count h =
      if ((Due.init level).run logger os).on h = true ∧ p = logger h.2 then 1 else 0 :=
  (inv_run nd os (inv_init logger tabs level)).handlers h p

/-- After a connection closed, no logger knows it and nothing is kept for it, whatever is logged later. -/
theorem C115_closed (logger : Nat → Path) (tabs : List Nat) (nd : tabs.Nodup) (level : Path → Nat)
    (os later : List Op) (c t : Nat) :
    ((Srv.init level).run logger tabs (os ++ .close c :: later)).buf (c, t) = [] ∧
    ∀ p, (c, t) ∉ ((Srv.init level).run logger tabs (os ++ .close c :: later)).handlers p := by
  have i := inv_run nd (os ++ .close c :: later) (inv_init logger tabs level)
  have hcl : ((Due.init level).run logger (os ++ .close c :: later)).closed c = true := by
    unfold Due.run
    rw [List.foldl_append, List.foldl_cons]
    have h0 : (((os.foldl (Due.step logger) (Due.init level)).step logger (.close c))).closed c = true := by
      simp [Due.step]
    generalize (os.foldl (Due.step logger) (Due.init level)).step logger (.close c) = d at h0
    clear i
    induction later generalizing d with
    | nil => exact h0
    | cons o later ih =>
      refine ih _ ?_
      cases o <;> simp only [Due.step, Due.log] <;> (try split) <;> simp_all
  refine ⟨i.empty (c, t) hcl, fun p hm => ?_⟩
  have := i.handlers (c, t) p
  rw [i.off (c, t) hcl] at this
  simp only [Bool.false_eq_true, false_and, if_false] at this
  exact List.count_eq_zero.mp this hm

/-- Clearing empties the box of that tab only; what is on the way comes after. -/
theorem C115_clear (s : Srv) (c t : Nat) :
    (s.cls c t).box (c, t) = [] ∧ (∀ h, h ≠ (c, t) → (s.cls c t).box h = s.box h) ∧
    (s.cls c t).wire = s.wire ∧ (s.cls c t).buf = s.buf := by
  refine ⟨by simp [Srv.cls], fun h hh => by simp [Srv.cls, hh], rfl, rfl⟩

/-! ### Messages of a tab -/

/-- A value of a channel as JSON. -/
inductive Val where
  | num (n : Int)
  | flag (b : Bool)
  | text (s : List Char)
  deriving DecidableEq

/-- What the server sends to a tab: a frame (state.py 39–57), the answer to being shown or hidden (message.py 77),
changed values (message.py 53–66). -/
inductive Msg where
  | frame (logs : Option (List String)) (points : Option (List (String × List Val)))
  | shown (b : Bool)
  | values (vs : List (String × Val))

/-- What is staged for a row of the table: a value, or something no channel has. -/
inductive Staged where
  | val (v : Val)
  | undefined
  | object
  deriving DecidableEq

/-- What is logged: a text of the server, or the text of a value. -/
inductive Line where
  | text (s : String)
  | val (v : Val)
  | char (c : Char)
  deriving DecidableEq

structure Page where
  log : List Line
  staged : List (String × Staged)
  raised : Bool

/-- The keys of the properties of a text, in order. -/
def indexed : Nat → List Char → List (String × Staged)
  | _, [] => []
  | n, c :: cs => (toString n, .val (.text [c])) :: indexed (n + 1) cs

/-- Values staged for rows of the table, TabInterface.js 391–399. -/
def stageRows (rows : String → Bool) (vs : List (String × Staged)) : List (String × Staged) :=
  vs.filter (fun v => rows v.1)

/-- `onmessage`, TabInterface.js 356–404: what is logged, what is staged and whether it raises. -/
def onmessage (rows : String → Bool) : Msg → Page
  | .frame logs points =>
    ⟨(logs.getD []).map .text,
     (points.getD []).map (fun p => (p.1, match p.2.getLast? with | some v => .val v | none => .undefined)) ++
       stageRows rows ((if logs.isSome then [("log_messages", .object)] else []) ++
         (if points.isSome then [("points", .object)] else [])), false⟩
  | .shown b => ⟨[], stageRows rows [("handle_shown_state", .val (.flag b))], false⟩
  | .values vs =>
    let one := match vs.lookup "log_message" with
      | some v => [Line.val v]
      | none => []
    let many := match vs.lookup "log_messages" with
      | some (.text s) => some (s.map Line.char)
      | some _ => none
      | none => some []
    match many with
    | none => ⟨one, [], true⟩
    | some many =>
      let pts := match vs.lookup "points" with
        | some (.text s) => indexed 0 s
        | _ => []
      match vs.lookup "actions" with
      | some (.num _) => ⟨one ++ many, pts, true⟩
      | some (.flag _) => ⟨one ++ many, pts, true⟩
      | _ => ⟨one ++ many, pts ++ stageRows rows (vs.map (fun v => (v.1, .val v.2))), false⟩

/-- The names with a meaning in a message. -/
def special : List String := ["log_message", "log_messages", "points", "actions", "handle_shown_state"]

/-- If no channel has a name with a meaning, the values reach exactly their rows, nothing is logged, a frame only logs
its messages and stages the last point of each channel, and nothing raises. -/
theorem C115_message_partial (rows : String → Bool) (m : Msg) (hr : ∀ n ∈ special, rows n = false)
    (hv : ∀ vs, m = .values vs → ∀ v ∈ vs, v.1 ∉ special) :
    (onmessage rows m).raised = false ∧
    (match m with
      | .values vs => (onmessage rows m).log = [] ∧
          ∀ n s, (n, s) ∈ (onmessage rows m).staged ↔ rows n = true ∧ ∃ v, (n, v) ∈ vs ∧ s = .val v
      | .shown _ => (onmessage rows m).log = [] ∧ (onmessage rows m).staged = []
      | .frame logs points => (onmessage rows m).log = (logs.getD []).map .text ∧
          (∀ n vs, vs ≠ [] → (n, vs) ∈ points.getD [] → ∃ v, vs.getLast? = some v ∧
            (n, .val v) ∈ (onmessage rows m).staged) ∧
          ∀ x ∈ (onmessage rows m).staged, ∃ vs, (x.1, vs) ∈ points.getD []) := by
  cases m with
  | frame logs points =>
    refine ⟨rfl, rfl, fun n vs hne hm => ?_, fun x hx => ?_⟩
    · cases hl : vs.getLast? with
      | none => exact absurd (List.getLast?_eq_none_iff.mp hl) hne
      | some v =>
        refine ⟨v, rfl, ?_⟩
        simp only [onmessage, List.mem_append, List.mem_map]
        exact .inl ⟨(n, vs), hm, by simp [hl]⟩
    · simp only [onmessage, List.mem_append, List.mem_map, stageRows, List.mem_filter] at hx
      rcases hx with ⟨p, hp, rfl⟩ | ⟨hx, hrow⟩
      · exact ⟨p.2, hp⟩
      · exfalso
        rcases hx with hx | hx <;> split at hx
        · simp at hx
          subst hx
          rw [hr _ (by simp [special])] at hrow
          cases hrow
        · simp at hx
        · simp at hx
          subst hx
          rw [hr _ (by simp [special])] at hrow
          cases hrow
        · simp at hx
  | shown b =>
    refine ⟨rfl, rfl, ?_⟩
    simp [onmessage, stageRows, hr "handle_shown_state" (by simp [special])]
  | values vs =>
    have no : ∀ n ∈ special, vs.lookup n = none := by
      intro n hn
      rw [List.lookup_eq_none_iff]
      intro v hvs
      simp only [bne_iff_ne, ne_eq]
      rintro rfl
      exact hv vs rfl v hvs hn
    have e : onmessage rows (.values vs) = ⟨[], stageRows rows (vs.map (fun v => (v.1, .val v.2))), false⟩ := by
      simp only [onmessage, no "log_message" (by simp [special]), no "log_messages" (by simp [special]),
        no "points" (by simp [special]), no "actions" (by simp [special]), List.append_nil, List.nil_append]
    rw [e]
    refine ⟨rfl, rfl, fun n s => ?_⟩
    simp only [stageRows, List.mem_filter, List.mem_map, Prod.mk.injEq]
    constructor
    · rintro ⟨⟨v, hvs, rfl, rfl⟩, hrow⟩
      exact ⟨hrow, v.2, hvs, rfl⟩
    · rintro ⟨hrow, v, hvs, rfl⟩
      exact ⟨⟨(n, v), hvs, rfl, rfl⟩, hrow⟩

/-- A channel `log_messages` or `actions` that is not text: no value of the tab sent with it is staged. -/
theorem C115_values_fails (rows : String → Bool) (vs : List (String × Val)) (name : String) (v : Val)
    (hn : name = "log_messages" ∨ name = "actions") (hl : vs.lookup name = some v) (ht : ∀ s, v ≠ .text s)
    (hp : vs.lookup "points" = none) :
    (onmessage rows (.values vs)).raised = true ∧ (onmessage rows (.values vs)).staged = [] := by
  rcases hn with rfl | rfl
  · cases v with
    | text s => exact absurd rfl (ht s)
    | num n => simp [onmessage, hl]
    | flag n => simp [onmessage, hl]
  · simp only [onmessage, hp]
    cases hm : vs.lookup "log_messages" with
    | none =>
      cases v with
      | text s => exact absurd rfl (ht s)
      | num n => simp [hl]
      | flag n => simp [hl]
    | some u =>
      cases u with
      | num n => simp
      | flag n => simp
      | text s =>
        cases v with
        | text s => exact absurd rfl (ht s)
        | num n => simp [hl]
        | flag n => simp [hl]

/-- The row of a channel `points`, `log_messages` or `handle_shown_state` gets what belongs to the tab. -/
theorem C115_rows_fails (rows : String → Bool) :
    (rows "points" = true → ∀ logs ps, ("points", .object) ∈ (onmessage rows (.frame logs (some ps))).staged) ∧
    (rows "log_messages" = true → ∀ ls ps, ("log_messages", .object) ∈ (onmessage rows (.frame (some ls) ps)).staged) ∧
    (rows "handle_shown_state" = true →
      ∀ b, ("handle_shown_state", .val (.flag b)) ∈ (onmessage rows (.shown b)).staged) := by
  refine ⟨fun h logs ps => ?_, fun h ls ps => ?_, fun h b => ?_⟩ <;> simp [onmessage, stageRows, h]

/-- The value of a channel `log_message` is written to the log. -/
theorem C115_logged_fails (rows : String → Bool) (vs : List (String × Val)) (v : Val)
    (h : vs.lookup "log_message" = some v) : (onmessage rows (.values vs)).log.head? = some (.val v) := by
  simp only [onmessage, h]
  split
  · rfl
  · split <;> rfl

theorem indexed_mem (s : List Char) (n i : Nat) (c : Char) (h : s[i]? = some c) :
    (toString (n + i), Staged.val (.text [c])) ∈ indexed n s := by
  induction s generalizing n i with
  | nil => simp at h
  | cons d s ih =>
    cases i with
    | zero =>
      simp only [List.getElem?_cons_zero, Option.some.injEq] at h
      subst h
      exact List.mem_cons_self
    | succ i =>
      rw [List.getElem?_cons_succ] at h
      have := ih (n + 1) i h
      rw [show n + 1 + i = n + (i + 1) by omega] at this
      exact List.mem_cons_of_mem _ this

/-- The value of a channel `points` that is text: its characters are staged for channels named like their
positions, from 0, whatever rows there are. -/
theorem C115_points_fails (rows : String → Bool) (vs : List (String × Val)) (s : List Char)
    (h : vs.lookup "points" = some (.text s)) (hl : vs.lookup "log_messages" = none) (i : Nat) (c : Char)
    (hc : s[i]? = some c) :
    (toString i, .val (.text [c])) ∈ (onmessage rows (.values vs)).staged := by
  have hm := indexed_mem s 0 i c hc
  rw [Nat.zero_add] at hm
  simp only [onmessage, h, hl]
  split
  · exact hm
  · exact hm
  · exact List.mem_append_left _ hm

/-! ### Cases -/

/-- Two pages; tab 0 follows `a`, tab 1 follows `a.b`. -/
def exLogger : Nat → Path
  | 0 => ["a"]
  | _ => ["b", "a"]

def exOps : List Op :=
  [.setLevel ["a"] 20, .init 0 0, .init 0 1, .init 0 0, .init 1 1, .log ["b", "a"] 20 "x", .log ["a"] 10 "low",
   .frame 0, .log ["a"] 30 "y", .deliver 0, .close 1, .log ["c", "b", "a"] 40 "z", .frame 0]

/-- The hypotheses are met: the record of `a.b` is in both boxes once, the low one in none, later ones are due. -/
theorem C115_cases :
    ((Srv.init (fun _ => 0)).run exLogger [0, 1] exOps).box (0, 0) = ["x"] ∧
    ((Srv.init (fun _ => 0)).run exLogger [0, 1] exOps).box (0, 1) = ["x"] ∧
    ((Srv.init (fun _ => 0)).run exLogger [0, 1] exOps).wire 0 = [[(0, ["y", "z"]), (1, ["z"])]] ∧
    ((Srv.init (fun _ => 0)).run exLogger [0, 1] exOps).buf (1, 1) = [] ∧
    ((Due.init (fun _ => 0)).run exLogger exOps).due (0, 0) = ["x", "y", "z"] ∧
    ((Due.init (fun _ => 0)).run exLogger exOps).closed 0 = false ∧
    (onmessage (fun _ => true) (.values [("a", .num 1), ("actions", .num 2)])).raised = true := by
  decide +kernel

end Verif.Logs
