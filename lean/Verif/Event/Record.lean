import Verif.Base
import Verif.Dict
import Mathlib.Data.List.Induction
/-!
C88: recording a run to files and loading it again: `GlobalEnvironment` of
runtimepy/channel/environment/command/__init__.py 44–230, with `registered` of
runtimepy/channel/registry.py 141–163 and `PrimitiveEvent.registered` of
runtimepy/channel/event/__init__.py 41–68.

Environments are numbered, channels and fields have names. A file of events is the list of its
events (that the bytes parse back to it is C32), without timestamps; an exported directory is the
values at that time (that loading gives them back is C68, with its exceptions). Simplified: no
minimum period (C34), a clock that does not go back, directories of different environment names
are different, files can be written until they are closed, and `differs` is Python's `!=` on
stored values, assumed to see every change (`Cfg.Ok.same`; a float that goes from 0.0 to -0.0 is
not seen).
-/
namespace Verif.Event.Record

open Verif

variable {V : Type}

/-- The emitter of a channel: not streaming; streaming to a file of environment `n`; or still
streaming to a file that has been closed. -/
inductive Em where
  | off
  | live (n path : String)
  | dead
  deriving DecidableEq

/-- What does not change: the dictionary of environments, the channels of each, and `!=`. -/
structure Cfg (V : Type) where
  names : List (String × Nat)
  chans : Nat → List String
  differs : V → V → Bool

structure World (V : Type) where
  val : Nat → String → V
  fld : Nat → String → V
  em : Nat → String → Em
  /-- the event files, by environment name and file name -/
  file : String → String → Option (List (String × V))
  /-- what was exported under an environment name: channels and fields -/
  snap : String → Option ((String → V) × (String → V))
  /-- `meta.json`: the "event_telemetry" entry -/
  info : Option (List (String × List String))
  /-- inside `event_telemetry_output`: what it will write to `meta.json` -/
  cur : Option (List (String × List String))

def set2 {α β γ : Type} [DecidableEq α] [DecidableEq β] (f : α → β → γ) (a : α) (b : β) (x : γ) : α → β → γ :=
  fun a' b' => if a' = a ∧ b' = b then x else f a' b'

def set1 {α γ : Type} [DecidableEq α] (f : α → γ) (a : α) (x : γ) : α → γ := fun a' => if a' = a then x else f a'

/-- One event written to a file. -/
def World.write (w : World V) (n path : String) (ev : String × V) : World V :=
  { w with file := set2 w.file n path ((w.file n path).map (· ++ [ev])) }

/-- Entering `PrimitiveEvent.registered`, event/__init__.py 51–65: the assertion, the first event,
the callback. -/
def World.openChan (w : World V) (n path : String) (e : Nat) (ch : String) : World V × Bool :=
  if w.em e ch ≠ .off then (w, true)
  else ({ w.write n path (ch, w.val e ch) with em := set2 w.em e ch (.live n path) }, false)

/-- The loop of registry.py 157–161; ends at the first exception. -/
def World.openChans (w : World V) (n path : String) (e : Nat) : List String → World V × Bool
  | [] => (w, false)
  | ch :: rest =>
    match w.openChan n path e ch with
    | (w, true) => (w, true)
    | (w, false) => w.openChans n path e rest

/-- Entering `file_event_stream`, command/__init__.py 106–110: export, open the file, register. -/
def World.openEnv (c : Cfg V) (w : World V) (sel : String → Bool) (path : String) (n : String) (e : Nat) : World V × Bool :=
  ({ w with snap := set1 w.snap n (some (w.val e, w.fld e)),
            file := set2 w.file n path (some []) } : World V).openChans n path e ((c.chans e).filter sel)

/-- The loop of `event_telemetry_output`, 191–201. -/
def World.openAll (c : Cfg V) (w : World V) (sel : String → Bool) (path : String) : List (String × Nat) → World V × Bool
  | [] => (w, false)
  | (n, e) :: rest =>
    match w.openEnv c sel path n e with
    | (w, true) => (w, true)
    | (w, false) => w.openAll c sel path rest

/-- The environments a pattern selects, 191. -/
def selected (c : Cfg V) (envSel : String → Bool) : List (String × Nat) := c.names.filter fun p => envSel p.1

/-- What a session writes to `meta.json`, 202–210. -/
def listing (c : Cfg V) (envSel sel : String → Bool) : List (String × List String) :=
  (selected c envSel).map fun p => (p.1, (c.chans p.2).filter sel)

/-- An exception passing through the contexts: the files are closed; `PrimitiveEvent.registered`
has nothing to undo its registration (event/__init__.py 66–68 is not in a `finally`). -/
def World.unwind (w : World V) : World V :=
  { w with em := fun e ch => match w.em e ch with | .live _ _ => .dead | x => x, cur := none }

/-- Entering `event_telemetry_output`, 185–212. -/
def World.start (c : Cfg V) (w : World V) (envSel sel : String → Bool) (path : String) : World V × Bool :=
  match w.openAll c sel path (selected c envSel) with
  | (w, true) => (w.unwind, true)
  | (w, false) => ({ w with cur := some (listing c envSel sel) }, false)

/-- Leaving it normally, 213–218: the callbacks are removed, the files closed, the metadata
written. -/
def World.finish (w : World V) : World V :=
  { w with em := fun e ch => match w.em e ch with | .live _ _ => .off | x => x, cur := none, info := w.cur.or w.info }

/-- Leaving it by an exception: no metadata is written. -/
def World.crash (w : World V) : World V := w.unwind

/-- Assigning to a channel, primitives/base.py 135–150: the value is stored, then the callback
writes, which raises if the file is closed. -/
def World.set (c : Cfg V) (w : World V) (e : Nat) (ch : String) (v : V) : World V × Bool :=
  let w' : World V := { w with val := set2 w.val e ch v }
  if c.differs (w.val e ch) v then
    match w.em e ch with
    | .off => (w', false)
    | .live n path => (w'.write n path (ch, v), false)
    | .dead => (w', true)
  else (w', false)

/-- What happens while a session is open, and between sessions. -/
inductive Op (V : Type) where
  | set (e : Nat) (ch : String) (v : V)
  | setField (e : Nat) (f : String) (v : V)

def World.step (c : Cfg V) (w : World V) : Op V → World V
  | .set e ch v => (w.set c e ch v).1
  | .setField e f v => { w with fld := set2 w.fld e f v }

def World.run (c : Cfg V) (w : World V) (ops : List (Op V)) : World V := ops.foldl (World.step c) w

/-- `from_root`, 57–90: the metadata, and every environment it lists loaded from its directory. -/
def World.load (w : World V) : Option (List (String × List String × (String → V) × (String → V))) :=
  match w.info with
  | none => none
  | some l => l.mapM fun p => (w.snap p.1).map fun s => (p.1, p.2, s.1, s.2)

/-- `read_event_stream`, 112–118. -/
def World.read (w : World V) (n path : String) : Option (List (String × V)) := w.file n path

/-- The default file name, `EVENT_OUT`, 44. -/
def eventOut : String := "event_stream.bin"

/-- Ingesting events into a loaded environment, telemetry.py 78–88 (channels). -/
def replay (s : String → V) (evs : List (String × V)) : String → V :=
  evs.foldl (fun s ev => set1 s ev.1 ev.2) s

/-- The events of one channel, in order (`ParsedEvent.by_channel`, registry.py 52–63). -/
def ofChan (ch : String) (evs : List (String × V)) : List V := (evs.filter (·.1 = ch)).map (·.2)

/-! ### What should be found

Independent of the files: the changes of a channel in a sequence of assignments. -/

def changes (d : V → V → Bool) (e : Nat) (ch : String) (v : V) : List (Op V) → List V
  | [] => []
  | .set e' ch' x :: ops =>
    if e' = e ∧ ch' = ch then (if d v x then x :: changes d e ch x ops else changes d e ch x ops)
    else changes d e ch v ops
  | .setField _ _ _ :: ops => changes d e ch v ops

/-! ### Lemmas -/

theorem set1_self {α γ : Type} [DecidableEq α] (f : α → γ) (a : α) (x : γ) : set1 f a x a = x := by simp [set1]
theorem set1_ne {α γ : Type} [DecidableEq α] (f : α → γ) {a b : α} (x : γ) (h : b ≠ a) : set1 f a x b = f b := by
  simp [set1, h]
theorem set2_self {α β γ : Type} [DecidableEq α] [DecidableEq β] (f : α → β → γ) (a : α) (b : β) (x : γ) :
    set2 f a b x a b = x := by simp [set2]
theorem set2_ne {α β γ : Type} [DecidableEq α] [DecidableEq β] (f : α → β → γ) {a a' : α} {b b' : β} (x : γ)
    (h : ¬ (a' = a ∧ b' = b)) : set2 f a b x a' b' = f a' b' := by rw [set2, if_neg h]

theorem replay_append (s : String → V) (a b : List (String × V)) : replay s (a ++ b) = replay (replay s a) b := by
  simp [replay]

theorem replay_snoc (s : String → V) (a : List (String × V)) (ev : String × V) :
    replay s (a ++ [ev]) = set1 (replay s a) ev.1 ev.2 := by simp [replay]

theorem ofChan_append (ch : String) (a b : List (String × V)) : ofChan ch (a ++ b) = ofChan ch a ++ ofChan ch b := by
  simp [ofChan]

/-- Nothing is streaming. -/
def Idle (w : World V) : Prop := ∀ e ch, w.em e ch = .off

/-- Dictionaries and registries have each name once. -/
structure Cfg.Ok (c : Cfg V) : Prop where
  names : (c.names.map (·.1)).Nodup
  chans : ∀ e, (c.chans e).Nodup
  same : ∀ a b, c.differs a b = false → a = b

/-- What opening the channels of one environment does. -/
theorem openChans_spec (w : World V) (n path : String) (e : Nat) (l : List String) (hn : l.Nodup)
    (hoff : ∀ ch ∈ l, w.em e ch = .off) :
    (w.openChans n path e l).2 = false ∧
    (w.openChans n path e l).1 = { w with
      file := set2 w.file n path ((w.file n path).map (· ++ l.map fun ch => (ch, w.val e ch))),
      em := fun e' ch => if e' = e ∧ ch ∈ l then .live n path else w.em e' ch } := by
  induction l generalizing w with
  | nil =>
    refine ⟨rfl, ?_⟩
    have h1 : set2 w.file n path ((w.file n path).map (· ++ ([] : List String).map fun ch => (ch, w.val e ch))) = w.file := by
      funext a b
      by_cases h : a = n ∧ b = path
      · rw [h.1, h.2, set2_self]; cases w.file n path <;> simp
      · rw [set2_ne _ _ h]
    rw [h1]
    simp [World.openChans]
  | cons ch l ih =>
    have h0 : w.em e ch = .off := hoff ch (by simp)
    have hstep : w.openChan n path e ch
        = ({ w.write n path (ch, w.val e ch) with em := set2 w.em e ch (.live n path) }, false) := by
      rw [World.openChan, if_neg (by simp [h0])]
    rw [List.nodup_cons] at hn
    have hoff' : ∀ x ∈ l, ({ w.write n path (ch, w.val e ch) with em := set2 w.em e ch (.live n path) } : World V).em e x = .off := by
      intro x hx
      show set2 w.em e ch (.live n path) e x = .off
      rw [set2_ne _ _ (by rintro ⟨-, rfl⟩; exact hn.1 hx)]
      exact hoff x (by simp [hx])
    obtain ⟨i1, i2⟩ := ih _ hn.2 hoff'
    rw [World.openChans, hstep]
    refine ⟨i1, ?_⟩
    rw [i2]
    have hem : (fun e' x => if e' = e ∧ x ∈ l then Em.live n path else set2 w.em e ch (.live n path) e' x)
        = fun e' x => if e' = e ∧ x ∈ ch :: l then Em.live n path else w.em e' x := by
      funext e' x
      by_cases h : e' = e ∧ x ∈ l
      · rw [if_pos h, if_pos ⟨h.1, by simp [h.2]⟩]
      · rw [if_neg h]
        by_cases h2 : e' = e ∧ x = ch
        · rw [h2.1, h2.2, set2_self, if_pos ⟨rfl, by simp⟩]
        · rw [set2_ne _ _ h2, if_neg]
          rintro ⟨a, b⟩
          rcases List.mem_cons.mp b with b | b
          · exact h2 ⟨a, b⟩
          · exact h ⟨a, b⟩
    have hfile : set2 (w.write n path (ch, w.val e ch)).file n path
          (((w.write n path (ch, w.val e ch)).file n path).map (· ++ l.map fun x => (x, w.val e x)))
        = set2 w.file n path ((w.file n path).map (· ++ (ch :: l).map fun x => (x, w.val e x))) := by
      funext a b
      by_cases h : a = n ∧ b = path
      · rw [h.1, h.2, set2_self, set2_self]
        simp only [World.write]
        rw [set2_self]
        cases w.file n path <;> simp
      · rw [set2_ne _ _ h, set2_ne _ _ h]
        simp only [World.write]
        rw [set2_ne _ _ h]
    show ({ w with file := _, em := _ } : World V) = _
    rw [← hem]
    simp only [World.write] at hfile ⊢
    rw [← hfile]

/-- The state right after opening: each selected environment has an event file with the values of
its selected channels, an exported directory, and live channels. -/
structure Opened (c : Cfg V) (sel : String → Bool) (path : String) (w0 w : World V) (l : List (String × Nat)) : Prop where
  val : w.val = w0.val
  fld : w.fld = w0.fld
  info : w.info = w0.info
  file : ∀ n e, (n, e) ∈ l → w.file n path = some (((c.chans e).filter sel).map fun ch => (ch, w0.val e ch))
  other : ∀ n p, (p ≠ path ∨ n ∉ l.map (·.1)) → w.file n p = w0.file n p
  snap : ∀ n e, (n, e) ∈ l → w.snap n = some (w0.val e, w0.fld e)
  em : ∀ n e, (n, e) ∈ l → ∀ ch ∈ (c.chans e).filter sel, w.em e ch = .live n path
  off : ∀ e ch, (∀ n, (n, e) ∈ l → ch ∉ (c.chans e).filter sel) → w.em e ch = w0.em e ch

theorem openChans_snap (w : World V) (n path : String) (e : Nat) (l : List String) : (w.openChans n path e l).1.snap = w.snap := by
  induction l generalizing w with
  | nil => rfl
  | cons a l ih =>
    rw [World.openChans]
    by_cases hx : w.em e a ≠ .off
    · rw [World.openChan, if_pos hx]
    · rw [World.openChan, if_neg hx]
      simp only
      rw [ih]; rfl

theorem openAll_snap (c : Cfg V) (sel : String → Bool) (path : String) (l : List (String × Nat)) (w : World V) (n : String)
    (hn : n ∉ l.map (·.1)) : (w.openAll c sel path l).1.snap n = w.snap n := by
  induction l generalizing w with
  | nil => rfl
  | cons q l ih =>
    obtain ⟨m, k⟩ := q
    rw [List.map_cons, List.mem_cons, not_or] at hn
    have hs : (w.openEnv c sel path m k).1.snap n = w.snap n := by
      rw [World.openEnv, openChans_snap]
      exact set1_ne _ _ hn.1
    rw [World.openAll]
    rcases hx : w.openEnv c sel path m k with ⟨w2, b⟩
    rw [hx] at hs
    cases b
    · simp only
      rw [ih w2 hn.2]; exact hs
    · exact hs

theorem openAll_spec (c : Cfg V) (hc : c.Ok) (sel : String → Bool) (path : String) (l : List (String × Nat)) (w : World V)
    (hn : (l.map (·.1)).Nodup) (hoff : ∀ n e, (n, e) ∈ l → ∀ ch ∈ (c.chans e).filter sel, w.em e ch = .off)
    (hd : l.Pairwise fun a b => a.2 = b.2 → (c.chans a.2).filter sel = []) :
    (w.openAll c sel path l).2 = false ∧ Opened c sel path w (w.openAll c sel path l).1 l := by
  induction l generalizing w with
  | nil =>
    exact ⟨rfl, ⟨rfl, rfl, rfl, by simp, fun _ _ _ => rfl, by simp, by simp, fun _ _ _ => rfl⟩⟩
  | cons p l ih =>
    obtain ⟨n, e⟩ := p
    rw [List.map_cons, List.nodup_cons] at hn
    rw [List.pairwise_cons] at hd
    have hnd : ((c.chans e).filter sel).Nodup := (hc.chans e).filter _
    obtain ⟨o1, o2⟩ := openChans_spec ({ w with snap := set1 w.snap n (some (w.val e, w.fld e)), file := set2 w.file n path (some []) } : World V)
      n path e ((c.chans e).filter sel) hnd (fun ch hch => hoff n e (by simp) ch hch)
    have hopen : w.openEnv c sel path n e = (({ w with snap := set1 w.snap n (some (w.val e, w.fld e)), file := set2 w.file n path (some []) } : World V).openChans n path e ((c.chans e).filter sel)) := rfl
    generalize hw1 : (({ w with snap := set1 w.snap n (some (w.val e, w.fld e)), file := set2 w.file n path (some []) } : World V).openChans n path e ((c.chans e).filter sel)).1 = w1 at o2
    have hres : w.openEnv c sel path n e = (w1, false) := by
      rw [hopen]; exact Prod.ext hw1 o1
    rw [World.openAll, hres]
    have e1 : w1.val = w.val := by rw [o2]
    have e2 : w1.fld = w.fld := by rw [o2]
    have e3 : w1.info = w.info := by rw [o2]
    have e4 : w1.file n path = some (((c.chans e).filter sel).map fun ch => (ch, w.val e ch)) := by
      rw [o2]; show set2 _ n path _ n path = _
      rw [set2_self]; simp only; rw [set2_self]; simp
    have e5 : ∀ a b, ¬ (a = n ∧ b = path) → w1.file a b = w.file a b := by
      intro a b h; rw [o2]; show set2 _ n path _ a b = _
      rw [set2_ne _ _ h]; simp only; rw [set2_ne _ _ h]
    have e6 : w1.snap = set1 w.snap n (some (w.val e, w.fld e)) := by rw [o2]
    have e7 : ∀ e' ch, w1.em e' ch = if e' = e ∧ ch ∈ (c.chans e).filter sel then .live n path else w.em e' ch := by
      intro e' ch; rw [o2]
    have hoff' : ∀ n' e', (n', e') ∈ l → ∀ ch ∈ (c.chans e').filter sel, w1.em e' ch = .off := by
      intro n' e' hm ch hch
      rw [e7, if_neg]
      · exact hoff n' e' (by simp [hm]) ch hch
      · rintro ⟨rfl, -⟩
        rw [hd.1 (n', e') hm rfl] at hch
        cases hch
    obtain ⟨i1, i2⟩ := ih w1 hn.2 hoff' hd.2
    refine ⟨i1, ?_⟩
    have hnl : ∀ e', (n, e') ∉ l := fun e' h => hn.1 (List.mem_map.mpr ⟨_, h, rfl⟩)
    refine ⟨by rw [i2.val, e1], by rw [i2.fld, e2], by rw [i2.info, e3], ?_, ?_, ?_, ?_, ?_⟩
    · intro n' e' hm
      rcases List.mem_cons.mp hm with h | h
      · cases h
        rw [i2.other n path (Or.inr hn.1), e4]
      · rw [i2.file n' e' h, e1]
    · intro n' p' h
      rw [List.map_cons, List.mem_cons, not_or] at h
      rw [i2.other n' p' (by rcases h with h | h; exact Or.inl h; exact Or.inr h.2), e5]
      rintro ⟨rfl, rfl⟩
      rcases h with h | h
      · exact h rfl
      · exact h.1 rfl
    · intro n' e' hm
      rcases List.mem_cons.mp hm with h | h
      · cases h
        have : (w1.openAll c sel path l).1.snap n = w1.snap n := openAll_snap c sel path l w1 n hn.1
        rw [this, e6, set1_self]
      · rw [i2.snap n' e' h, e1, e2]
    · intro n' e' hm ch hch
      rcases List.mem_cons.mp hm with h | h
      · cases h
        rw [i2.off e ch ?_, e7, if_pos ⟨rfl, hch⟩]
        intro m hm' hch'
        have := hd.1 (m, e) hm' rfl
        rw [this] at hch
        cases hch
      · exact i2.em n' e' h ch hch
    · intro e' ch h
      rw [i2.off e' ch (fun n' hm => h n' (by simp [hm])), e7, if_neg]
      rintro ⟨rfl, hch⟩
      exact h n (by simp) hch

/-- No environment with selected channels is listed twice. -/
def NoAlias (c : Cfg V) (envSel sel : String → Bool) : Prop :=
  (selected c envSel).Pairwise fun a b => a.2 = b.2 → (c.chans a.2).filter sel = []

/-- What holds during a session. -/
structure Live (c : Cfg V) (envSel sel : String → Bool) (path : String) (w0 : World V) (ops : List (Op V)) (w : World V) : Prop where
  cur : w.cur = some (listing c envSel sel)
  snap : ∀ n e, (n, e) ∈ selected c envSel → w.snap n = some (w0.val e, w0.fld e)
  em : ∀ n e, (n, e) ∈ selected c envSel → ∀ ch ∈ (c.chans e).filter sel, w.em e ch = .live n path
  file : ∀ n e, (n, e) ∈ selected c envSel → ∃ evs, w.file n path = some evs ∧
    (∀ ev ∈ evs, ev.1 ∈ (c.chans e).filter sel) ∧
    ∀ ch ∈ (c.chans e).filter sel, replay (w0.val e) evs ch = w.val e ch ∧
      ofChan ch evs = w0.val e ch :: changes c.differs e ch (w0.val e ch) ops
  off : ∀ e ch, (∀ n, (n, e) ∈ selected c envSel → ch ∉ (c.chans e).filter sel) → w.em e ch = .off
  last : ∀ e ch, w.val e ch = ((changes c.differs e ch (w0.val e ch) ops).getLast?).getD (w0.val e ch)

theorem selected_names (c : Cfg V) (hc : c.Ok) (envSel : String → Bool) : ((selected c envSel).map (·.1)).Nodup :=
  (List.filter_sublist.map _).nodup hc.names

theorem unique_env {l : List (String × Nat)} (h : (l.map (·.1)).Nodup) {n : String} {e e' : Nat} (h1 : (n, e) ∈ l)
    (h2 : (n, e') ∈ l) : e = e' := by
  induction l with
  | nil => cases h1
  | cons p l ih =>
    rw [List.map_cons, List.nodup_cons] at h
    rcases List.mem_cons.mp h1 with a | a <;> rcases List.mem_cons.mp h2 with b | b
    · rw [← a] at b; cases b; rfl
    · exact absurd (List.mem_map.mpr ⟨_, b, by rw [← a]⟩) h.1
    · exact absurd (List.mem_map.mpr ⟨_, a, by rw [← b]⟩) h.1
    · exact ih h.2 a b

theorem replay_list (s : String → V) (l : List String) (f : String → V) (ch : String) (h : ch ∈ l) :
    replay s (l.map fun x => (x, f x)) ch = f ch := by
  induction l using List.reverseRecOn with
  | nil => cases h
  | append_singleton l x ih =>
    rw [List.map_append, List.map_singleton, replay_snoc]
    by_cases hx : ch = x
    · subst hx; exact set1_self _ _ _
    · rw [set1_ne _ _ hx]
      refine ih ?_
      rcases List.mem_append.mp h with h | h
      · exact h
      · simp at h; exact absurd h hx

theorem ofChan_list (l : List String) (hn : l.Nodup) (f : String → V) (ch : String) (h : ch ∈ l) :
    ofChan ch (l.map fun x => (x, f x)) = [f ch] := by
  induction l with
  | nil => cases h
  | cons x l ih =>
    rw [List.nodup_cons] at hn
    rw [List.map_cons, show ((x, f x) :: l.map fun x => (x, f x)) = [(x, f x)] ++ l.map fun x => (x, f x) from rfl, ofChan_append]
    by_cases hx : x = ch
    · subst hx
      have : ofChan x (l.map fun y => (y, f y)) = [] := by
        rw [ofChan, List.filter_eq_nil_iff.mpr]
        · rfl
        · intro ev hev
          obtain ⟨y, hy, rfl⟩ := List.mem_map.mp hev
          simp only [decide_eq_true_eq]
          rintro rfl
          exact hn.1 hy
      rw [this]; simp [ofChan]
    · have : ofChan ch [(x, f x)] = [] := by simp [ofChan, hx]
      rw [this, ih hn.2 (by rcases List.mem_cons.mp h with h | h; exact absurd h.symm hx; exact h)]
      rfl

theorem changes_append (d : V → V → Bool) (e : Nat) (ch : String) (v : V) (a b : List (Op V))
    (hd : ∀ x y, d x y = false → x = y) :
    changes d e ch v (a ++ b) = changes d e ch v a ++ changes d e ch (((changes d e ch v a).getLast?).getD v) b := by
  induction a generalizing v with
  | nil => rfl
  | cons op a ih =>
    cases op with
    | setField _ _ _ => simp only [List.cons_append, changes]; exact ih v
    | set e' ch' x =>
      simp only [List.cons_append, changes]
      by_cases h : e' = e ∧ ch' = ch
      · rw [if_pos h, if_pos h]
        by_cases hx : d v x = true
        · rw [if_pos hx, if_pos hx, ih x, List.cons_append]
          congr 2
          rw [List.getLast?_cons]
          cases (changes d e ch x a).getLast? <;> rfl
        · have := hd v x (by simpa using hx)
          subst this
          rw [if_neg hx, if_neg hx, ih]
      · rw [if_neg h, if_neg h, ih v]

/-- One more assignment. -/
theorem track (c : Cfg V) (hc : c.Ok) (envSel sel : String → Bool) (path : String) (w0 w : World V) (ops : List (Op V))
    (h : Live c envSel sel path w0 ops w) (e : Nat) (ch : String) (x : V) :
    changes c.differs e ch (w0.val e ch) (ops ++ [.set e ch x])
      = changes c.differs e ch (w0.val e ch) ops ++ (if c.differs (w.val e ch) x then [x] else []) := by
  rw [changes_append _ _ _ _ _ _ hc.same, ← h.last e ch]
  simp only [changes, and_self, if_true]

theorem live_start (c : Cfg V) (hc : c.Ok) (envSel sel : String → Bool) (path : String) (w : World V) (hi : Idle w)
    (ha : NoAlias c envSel sel) :
    (w.start c envSel sel path).2 = false ∧ Live c envSel sel path w [] (w.start c envSel sel path).1 ∧
    (w.start c envSel sel path).1.val = w.val := by
  obtain ⟨h1, h2⟩ := openAll_spec c hc sel path (selected c envSel) w (selected_names c hc envSel) (fun _ e _ ch _ => hi e ch) ha
  rcases hx : w.openAll c sel path (selected c envSel) with ⟨w1, b⟩
  rw [hx] at h1 h2
  simp only at h1 h2
  subst h1
  have e : w.start c envSel sel path = ({ w1 with cur := some (listing c envSel sel) }, false) := by
    rw [World.start, hx]
  rw [e]
  refine ⟨rfl, ⟨rfl, h2.snap, h2.em, ?_, ?_, ?_⟩, h2.val⟩
  · intro n k hm
    refine ⟨_, h2.file n k hm, ?_, ?_⟩
    · intro ev hev
      obtain ⟨x, hx, rfl⟩ := List.mem_map.mp hev
      exact hx
    · intro ch hch
      refine ⟨?_, ?_⟩
      · rw [replay_list _ _ _ _ hch, ← h2.val]
      · rw [ofChan_list _ ((hc.chans k).filter _) _ _ hch]; rfl
  · intro k ch h
    show w1.em k ch = .off
    rw [h2.off k ch h]; exact hi k ch
  · intro k ch
    show w1.val k ch = _
    rw [h2.val]; rfl

theorem live_step (c : Cfg V) (hc : c.Ok) (envSel sel : String → Bool) (path : String) (w0 w : World V) (ops : List (Op V))
    (h : Live c envSel sel path w0 ops w) (op : Op V) : Live c envSel sel path w0 (ops ++ [op]) (w.step c op) := by
  have hnames := selected_names c hc envSel
  cases op with
  | setField e f v =>
    have e0 : ∀ k ch u l, changes c.differs k ch u (ops ++ .setField e f v :: l) = changes c.differs k ch u (ops ++ l) := by
      intro k ch u l
      rw [changes_append _ _ _ _ _ _ hc.same, changes_append _ _ _ _ _ l hc.same]; rfl
    refine ⟨h.cur, h.snap, h.em, ?_, h.off, ?_⟩
    · intro n k hm
      obtain ⟨evs, f1, f2, f3⟩ := h.file n k hm
      refine ⟨evs, f1, f2, fun ch hch => ⟨(f3 ch hch).1, ?_⟩⟩
      rw [e0]; simpa using (f3 ch hch).2
    · intro k ch
      rw [e0, List.append_nil]
      exact h.last k ch
  | set e ch v =>
    have hval : ∀ k x, (w.step c (.set e ch v)).val k x = if k = e ∧ x = ch then v else w.val k x := by
      intro k x
      show (w.set c e ch v).1.val k x = _
      have : (w.set c e ch v).1.val = set2 w.val e ch v := by
        unfold World.set
        by_cases hd : c.differs (w.val e ch) v = true
        · simp only [hd, if_true]; cases w.em e ch <;> rfl
        · simp only [hd, Bool.false_eq_true, if_false]
      rw [this]; rfl
    have hem : (w.step c (.set e ch v)).em = w.em ∧ (w.step c (.set e ch v)).cur = w.cur ∧ (w.step c (.set e ch v)).snap = w.snap := by
      show (w.set c e ch v).1.em = _ ∧ (w.set c e ch v).1.cur = _ ∧ (w.set c e ch v).1.snap = _
      unfold World.set
      by_cases hd : c.differs (w.val e ch) v = true
      · simp only [hd, if_true]; cases w.em e ch <;> exact ⟨rfl, rfl, rfl⟩
      · simp only [hd, Bool.false_eq_true, if_false, and_self]
    -- changes of other channels
    have hother : ∀ k x u l, ¬ (k = e ∧ x = ch) →
        changes c.differs k x u (ops ++ .set e ch v :: l) = changes c.differs k x u (ops ++ l) := by
      intro k x u l hne
      rw [changes_append _ _ _ _ _ _ hc.same, changes_append _ _ _ _ _ l hc.same]
      congr 1
      rw [changes, if_neg (by rintro ⟨a, b⟩; exact hne ⟨a.symm, b.symm⟩)]
    refine ⟨by rw [hem.2.1]; exact h.cur, by rw [hem.2.2]; exact h.snap, by rw [hem.1]; exact h.em, ?_, by rw [hem.1]; exact h.off, ?_⟩
    · intro n k hm
      obtain ⟨evs, f1, f2, f3⟩ := h.file n k hm
      by_cases hk : k = e ∧ ch ∈ (c.chans e).filter sel ∧ c.differs (w.val e ch) v = true
      · -- an event is written to this file
        obtain ⟨rfl, hch, hd⟩ := hk
        have hlive := h.em n k hm ch hch
        have hf : (w.step c (.set k ch v)).file n path = some (evs ++ [(ch, v)]) := by
          show (w.set c k ch v).1.file n path = _
          unfold World.set
          simp only [hd, if_true, hlive, World.write, set2_self, f1, Option.map_some]
        refine ⟨_, hf, ?_, ?_⟩
        · intro ev hev
          rcases List.mem_append.mp hev with hev | hev
          · exact f2 ev hev
          · simp at hev; subst hev; exact hch
        · intro x hx
          rw [replay_snoc, ofChan_append, hval]
          by_cases hxc : x = ch
          · subst hxc
            rw [set1_self, if_pos ⟨rfl, rfl⟩, (f3 x hx).2, track c hc envSel sel path w0 w ops h, if_pos hd]
            exact ⟨rfl, by simp [ofChan]⟩
          · rw [set1_ne _ _ hxc, if_neg (fun a => hxc a.2), hother k x _ [] (fun a => hxc a.2), List.append_nil, (f3 x hx).2]
            refine ⟨(f3 x hx).1, ?_⟩
            have : ofChan x [(ch, v)] = [] := by simp [ofChan, Ne.symm hxc]
            rw [this, List.append_nil]
      · -- the file stays as it is
        have hf : (w.step c (.set e ch v)).file n path = some evs := by
          show (w.set c e ch v).1.file n path = _
          unfold World.set
          by_cases hd : c.differs (w.val e ch) v = true
          · simp only [hd, if_true]
            cases hx : w.em e ch with
            | off => exact f1
            | dead => exact f1
            | live m p =>
              simp only [World.write]
              rw [set2_ne]
              · exact f1
              · rintro ⟨rfl, rfl⟩
                -- then `ch` is selected in some environment named like this one
                by_cases hs : ∃ m', (m', e) ∈ selected c envSel ∧ ch ∈ (c.chans e).filter sel
                · obtain ⟨m', hm', hch⟩ := hs
                  have := h.em m' e hm' ch hch
                  rw [hx] at this
                  cases this
                  exact hk ⟨unique_env hnames hm hm', hch, hd⟩
                · have := h.off e ch (fun m' hm' hch => hs ⟨m', hm', hch⟩)
                  rw [hx] at this; cases this
          · simp only [hd, Bool.false_eq_true, if_false]; exact f1
        refine ⟨evs, hf, f2, fun x hx => ?_⟩
        rw [hval]
        by_cases hxc : k = e ∧ x = ch
        · obtain ⟨rfl, rfl⟩ := hxc
          have hd : c.differs (w.val k x) v = false := by
            cases hdd : c.differs (w.val k x) v
            · rfl
            · exact absurd ⟨rfl, hx, hdd⟩ hk
          rw [if_pos ⟨rfl, rfl⟩, track c hc envSel sel path w0 w ops h, if_neg (by simp [hd]), List.append_nil, (f3 x hx).1, (f3 x hx).2]
          exact ⟨hc.same _ _ hd, rfl⟩
        · rw [if_neg hxc, hother k x _ [] hxc, List.append_nil]
          exact f3 x hx
    · intro k x
      rw [hval]
      by_cases hxc : k = e ∧ x = ch
      · obtain ⟨rfl, rfl⟩ := hxc
        rw [if_pos ⟨rfl, rfl⟩, track c hc envSel sel path w0 w ops h]
        by_cases hd : c.differs (w.val k x) v = true
        · rw [if_pos hd]; simp
        · rw [if_neg hd, List.append_nil, ← h.last k x]
          exact (hc.same _ _ (by simpa using hd)).symm
      · rw [if_neg hxc, hother k x _ [] hxc, List.append_nil]
        exact h.last k x

theorem live_run (c : Cfg V) (hc : c.Ok) (envSel sel : String → Bool) (path : String) (w0 : World V) (ops pre : List (Op V))
    (w : World V) (h : Live c envSel sel path w0 pre w) : Live c envSel sel path w0 (pre ++ ops) (w.run c ops) := by
  induction ops generalizing pre w with
  | nil => rw [List.append_nil]; exact h
  | cons op ops ih =>
    have := ih (pre ++ [op]) _ (live_step c hc envSel sel path w0 w pre h op)
    simpa [World.run] using this

/-! ### A recorded run -/

theorem replay_other (s : String → V) (evs : List (String × V)) (x : String) (h : ∀ ev ∈ evs, ev.1 ≠ x) :
    replay s evs x = s x := by
  induction evs using List.reverseRecOn with
  | nil => rfl
  | append_singleton l ev ih =>
    rw [replay_snoc, set1_ne _ _ (Ne.symm (h ev (by simp))), ih (fun e he => h e (by simp [he]))]

/-- The whole session: start, `ops`, normal end. -/
def World.session (c : Cfg V) (w : World V) (envSel sel : String → Bool) (path : String) (ops : List (Op V)) : World V :=
  ((w.start c envSel sel path).1.run c ops).finish

theorem mapM_some {α β : Type} (l : List α) (f : α → Option β) (g : α → β) (h : ∀ a ∈ l, f a = some (g a)) :
    l.mapM f = some (l.map g) := by
  induction l with
  | nil => rfl
  | cons a l ih =>
    rw [List.mapM_cons, h a (by simp), ih (fun b hb => h b (by simp [hb]))]
    rfl

/-- C88. A session that ends normally can be loaded: it lists the selected environments and their
selected channels, each environment with the values it had at the start. The file of an
environment holds for every selected channel its value at the start and then every change, in
order; replayed on what was loaded it gives the values at the end, and leaves other channels. -/
theorem C88_replay (c : Cfg V) (hc : c.Ok) (envSel sel : String → Bool) (path : String) (w : World V) (hi : Idle w)
    (ha : NoAlias c envSel sel) (ops : List (Op V)) :
    (w.start c envSel sel path).2 = false ∧
    (w.session c envSel sel path ops).load
      = some ((selected c envSel).map fun p => (p.1, (c.chans p.2).filter sel, w.val p.2, w.fld p.2)) ∧
    (∀ n e, (n, e) ∈ selected c envSel → ∃ evs, (w.session c envSel sel path ops).read n path = some evs ∧
      (∀ ch ∈ (c.chans e).filter sel,
        ofChan ch evs = w.val e ch :: changes c.differs e ch (w.val e ch) ops ∧
        replay (w.val e) evs ch = (w.session c envSel sel path ops).val e ch) ∧
      ∀ x, x ∉ (c.chans e).filter sel → replay (w.val e) evs x = w.val e x) ∧
    Idle (w.session c envSel sel path ops) := by
  obtain ⟨h1, h2, -⟩ := live_start c hc envSel sel path w hi ha
  have h := live_run c hc envSel sel path w ops [] _ h2
  rw [List.nil_append] at h
  refine ⟨h1, ?_, ?_, ?_⟩
  · have : (w.session c envSel sel path ops).info = some (listing c envSel sel) := by
      show (World.cur _).or _ = _
      rw [h.cur]; rfl
    rw [World.load, this]
    show (listing c envSel sel).mapM _ = _
    rw [listing, List.mapM_map]
    refine mapM_some _ _ _ ?_
    rintro ⟨n, e⟩ hm
    show ((w.session c envSel sel path ops).snap n).map _ = _
    have : (w.session c envSel sel path ops).snap n = some (w.val e, w.fld e) := h.snap n e hm
    rw [this]; rfl
  · intro n e hm
    obtain ⟨evs, f1, f2, f3⟩ := h.file n e hm
    refine ⟨evs, f1, fun ch hch => ⟨(f3 ch hch).2, (f3 ch hch).1⟩, fun x hx => ?_⟩
    refine replay_other _ _ _ (fun ev hev => ?_)
    rintro rfl
    exact hx (f2 ev hev)
  · intro e ch
    show (match ((w.start c envSel sel path).1.run c ops).em e ch with | .live _ _ => Em.off | x => x) = .off
    by_cases hs : ∃ n, (n, e) ∈ selected c envSel ∧ ch ∈ (c.chans e).filter sel
    · obtain ⟨n, hm, hch⟩ := hs
      rw [h.em n e hm ch hch]
    · rw [h.off e ch (fun n hm hch => hs ⟨n, hm, hch⟩)]

theorem step_grows (c : Cfg V) (w : World V) (op : Op V) (n p : String) (evs : List (String × V)) (h : w.file n p = some evs) :
    ∃ more, (w.step c op).file n p = some (evs ++ more) := by
  cases op with
  | setField _ _ _ => exact ⟨[], by rw [List.append_nil]; exact h⟩
  | set e ch v =>
    show ∃ more, (w.set c e ch v).1.file n p = _
    unfold World.set
    by_cases hd : c.differs (w.val e ch) v = true
    · simp only [hd, if_true]
      cases w.em e ch with
      | off => exact ⟨[], by simpa using h⟩
      | dead => exact ⟨[], by simpa using h⟩
      | live m q =>
        by_cases hq : n = m ∧ p = q
        · obtain ⟨rfl, rfl⟩ := hq
          exact ⟨[(ch, v)], by simp only [World.write]; rw [set2_self, h]; rfl⟩
        · exact ⟨[], by simp only [World.write]; rw [set2_ne _ _ hq]; simpa using h⟩
    · simp only [hd, Bool.false_eq_true, if_false]
      exact ⟨[], by simpa using h⟩

theorem run_grows (c : Cfg V) (ops : List (Op V)) (w : World V) (n p : String) (evs : List (String × V)) (h : w.file n p = some evs) :
    ∃ more, (w.run c ops).file n p = some (evs ++ more) := by
  induction ops generalizing w evs with
  | nil => exact ⟨[], by simpa [World.run] using h⟩
  | cons op ops ih =>
    obtain ⟨m1, h1⟩ := step_grows c w op n p evs h
    obtain ⟨m2, h2⟩ := ih _ _ h1
    exact ⟨m1 ++ m2, by rw [← List.append_assoc]; exact h2⟩

/-- C88. Every moment of the session can be found again: some number of events of the file,
replayed, gives the values that all selected channels of the environment had together at that
moment. -/
theorem C88_moment (c : Cfg V) (hc : c.Ok) (envSel sel : String → Bool) (path : String) (w : World V) (hi : Idle w)
    (ha : NoAlias c envSel sel) (before after : List (Op V)) (n : String) (e : Nat) (hm : (n, e) ∈ selected c envSel) :
    ∃ evs k, (w.session c envSel sel path (before ++ after)).read n path = some evs ∧
      ∀ ch ∈ (c.chans e).filter sel,
        replay (w.val e) (evs.take k) ch = ((w.start c envSel sel path).1.run c before).val e ch := by
  obtain ⟨-, h2, -⟩ := live_start c hc envSel sel path w hi ha
  have h := live_run c hc envSel sel path w before [] _ h2
  rw [List.nil_append] at h
  obtain ⟨evs, f1, -, f3⟩ := h.file n e hm
  obtain ⟨more, hmore⟩ := run_grows c after _ n path evs f1
  refine ⟨evs ++ more, evs.length, ?_, fun ch hch => ?_⟩
  · show (World.run c _ (before ++ after)).file n path = _
    rw [World.run, List.foldl_append]
    exact hmore
  · rw [List.take_left]; exact (f3 ch hch).1

/-! ### What fails -/

/-- C88 fails for bit-fields: an assignment to a field is not in the file, and what is loaded has
the field's value from the start. -/
theorem C88_field_fails (c : Cfg V) (hc : c.Ok) (envSel sel : String → Bool) (path : String) (w : World V) (hi : Idle w)
    (ha : NoAlias c envSel sel) (ops : List (Op V)) (e : Nat) (f : String) (v : V) :
    (w.session c envSel sel path (ops ++ [.setField e f v])).fld e f = v ∧
    (w.session c envSel sel path (ops ++ [.setField e f v])).load = (w.session c envSel sel path ops).load ∧
    (w.session c envSel sel path (ops ++ [.setField e f v])).file = (w.session c envSel sel path ops).file := by
  have e1 : (w.start c envSel sel path).1.run c (ops ++ [.setField e f v])
      = { (w.start c envSel sel path).1.run c ops with fld := set2 ((w.start c envSel sel path).1.run c ops).fld e f v } := by
    simp [World.run, World.step]
  refine ⟨?_, ?_, ?_⟩
  · rw [World.session, e1]; exact set2_self _ _ _ _
  · rw [(C88_replay c hc envSel sel path w hi ha _).2.1, (C88_replay c hc envSel sel path w hi ha ops).2.1]
  · rw [World.session, World.session, e1]; rfl

/-- C88 fails for another file name: the loaded environment's `read_event_stream` looks for the
default one, where a session with another name writes nothing. It finds no file, or that of an
earlier session. -/
theorem C88_path_fails (c : Cfg V) (hc : c.Ok) (envSel sel : String → Bool) (path : String) (hp : path ≠ eventOut)
    (w : World V) (hi : Idle w) (ha : NoAlias c envSel sel) (ops : List (Op V)) (n : String) :
    (w.session c envSel sel path ops).read n eventOut = w.file n eventOut := by
  obtain ⟨h1, h2⟩ := openAll_spec c hc sel path (selected c envSel) w (selected_names c hc envSel) (fun _ e _ ch _ => hi e ch) ha
  have hs : (w.start c envSel sel path).1.file = (w.openAll c sel path (selected c envSel)).1.file := by
    rw [World.start]
    rcases hx : w.openAll c sel path (selected c envSel) with ⟨w1, b⟩
    rw [hx] at h1
    simp only at h1
    subst h1
    rfl
  -- only files called `path` are written
  have hrun : ∀ (ops : List (Op V)) (pre : List (Op V)) (x : World V), Live c envSel sel path w pre x →
      (x.run c ops).file n eventOut = x.file n eventOut := by
    intro ops
    induction ops with
    | nil => intro _ x _; rfl
    | cons op ops ih =>
      intro pre x hx
      have h3 := ih _ _ (live_step c hc envSel sel path w x pre hx op)
      have h4 : (x.run c (op :: ops)).file n eventOut = ((x.step c op).run c ops).file n eventOut := rfl
      rw [h4, h3]
      cases op with
      | setField _ _ _ => rfl
      | set e ch v =>
        show (x.set c e ch v).1.file n eventOut = _
        unfold World.set
        by_cases hd : c.differs (x.val e ch) v = true
        · simp only [hd, if_true]
          cases hem : x.em e ch with
          | off => rfl
          | dead => rfl
          | live m q =>
            have hq : q = path := by
              by_cases hs : ∃ m', (m', e) ∈ selected c envSel ∧ ch ∈ (c.chans e).filter sel
              · obtain ⟨m', hm', hch⟩ := hs
                have := hx.em m' e hm' ch hch
                rw [hem] at this
                cases this; rfl
              · have := hx.off e ch (fun m' hm' hch => hs ⟨m', hm', hch⟩)
                rw [hem] at this; cases this
            simp only [World.write]
            rw [set2_ne]
            rintro ⟨-, h⟩
            exact hp (by rw [← hq, ← h])
        · simp only [hd, Bool.false_eq_true, if_false]
  obtain ⟨-, hl, -⟩ := live_start c hc envSel sel path w hi ha
  show ((w.start c envSel sel path).1.run c ops).file n eventOut = _
  rw [hrun ops [] _ hl, hs]
  exact h2.other n eventOut (Or.inl (Ne.symm hp))

/-- Anything a program may do later; a session is not started inside another. -/
inductive Act (V : Type) where
  | op (o : Op V)
  | start (envSel sel : String → Bool) (path : String)
  | finish
  | crash

def World.act (c : Cfg V) (w : World V) : Act V → World V
  | .op o => w.step c o
  | .start es s p => if w.cur = none then (w.start c es s p).1 else w
  | .finish => if w.cur = none then w else w.finish
  | .crash => if w.cur = none then w else w.crash

theorem step_em (c : Cfg V) (w : World V) (o : Op V) : (w.step c o).em = w.em := by
  cases o with
  | setField _ _ _ => rfl
  | set e ch v =>
    show (w.set c e ch v).1.em = _
    unfold World.set
    by_cases hd : c.differs (w.val e ch) v = true
    · simp only [hd, if_true]; cases w.em e ch <;> rfl
    · simp only [hd, Bool.false_eq_true, if_false]

theorem openChans_keep (w : World V) (n path : String) (k : Nat) (l : List String) (e : Nat) (ch : String) (h : w.em e ch ≠ .off) :
    (w.openChans n path k l).1.em e ch = w.em e ch ∧ (k = e → ch ∈ l → (w.openChans n path k l).2 = true) := by
  induction l generalizing w with
  | nil => exact ⟨rfl, fun _ h => by cases h⟩
  | cons a l ih =>
    rw [World.openChans]
    by_cases hx : w.em k a ≠ .off
    · rw [World.openChan, if_pos hx]; exact ⟨rfl, fun _ _ => rfl⟩
    · rw [World.openChan, if_neg hx]
      simp only
      have hne : ¬ (e = k ∧ ch = a) := by rintro ⟨rfl, rfl⟩; exact hx h
      have h' : ({ w.write n path (a, w.val k a) with em := set2 w.em k a (.live n path) } : World V).em e ch = w.em e ch :=
        set2_ne _ _ hne
      obtain ⟨i1, i2⟩ := ih ({ w.write n path (a, w.val k a) with em := set2 w.em k a (.live n path) } : World V) (by rw [h']; exact h)
      refine ⟨by rw [i1, h'], fun hk hm => i2 hk ?_⟩
      rcases List.mem_cons.mp hm with rfl | hm
      · exact absurd ⟨hk.symm, rfl⟩ hne
      · exact hm

theorem openAll_keep (c : Cfg V) (sel : String → Bool) (path : String) (l : List (String × Nat)) (w : World V) (e : Nat) (ch : String)
    (h : w.em e ch ≠ .off) :
    (w.openAll c sel path l).1.em e ch = w.em e ch ∧
    (∀ n, (n, e) ∈ l → ch ∈ (c.chans e).filter sel → (w.openAll c sel path l).2 = true) := by
  induction l generalizing w with
  | nil => exact ⟨rfl, fun _ h => by cases h⟩
  | cons q l ih =>
    obtain ⟨m, k⟩ := q
    rw [World.openAll]
    obtain ⟨a1, a2⟩ := openChans_keep ({ w with snap := set1 w.snap m (some (w.val k, w.fld k)), file := set2 w.file m path (some []) } : World V) m path k ((c.chans k).filter sel) e ch h
    have b1 : (w.openEnv c sel path m k).1.em e ch = w.em e ch := a1
    have b2 : k = e → ch ∈ (c.chans k).filter sel → (w.openEnv c sel path m k).2 = true := a2
    rcases hx : w.openEnv c sel path m k with ⟨w2, b⟩
    rw [hx] at b1 b2
    cases b
    · simp only at b1 b2 ⊢
      obtain ⟨i1, i2⟩ := ih w2 (by rw [b1]; exact h)
      refine ⟨by rw [i1, b1], fun n hm hch => ?_⟩
      rcases List.mem_cons.mp hm with hm | hm
      · cases hm; exact absurd (b2 rfl hch) (by simp)
      · exact i2 n hm hch
    · exact ⟨b1, fun _ _ _ => rfl⟩

theorem dead_act (c : Cfg V) (w : World V) (a : Act V) (e : Nat) (ch : String) (h : w.em e ch = .dead) : (w.act c a).em e ch = .dead := by
  cases a with
  | op o => rw [World.act, step_em]; exact h
  | start es s p =>
    rw [World.act]
    split
    · have hk := (openAll_keep c s p (selected c es) w e ch (by simp [h])).1
      rw [World.start]
      rcases hx : w.openAll c s p (selected c es) with ⟨w1, b⟩
      rw [hx] at hk
      simp only at hk
      cases b
      · show w1.em e ch = .dead
        rw [hk, h]
      · show (match w1.em e ch with | .live _ _ => Em.dead | x => x) = .dead
        rw [hk, h]
    · exact h
  | finish =>
    rw [World.act]
    split
    · exact h
    · show (match w.em e ch with | .live _ _ => Em.off | x => x) = .dead
      rw [h]
  | crash =>
    rw [World.act]
    split
    · exact h
    · show (match w.em e ch with | .live _ _ => Em.dead | x => x) = .dead
      rw [h]

/-- A channel whose file was closed under it, for ever after: it can not be recorded again, in no
session that selects it, and every change of it raises. -/
def Stuck (c : Cfg V) (w : World V) (e : Nat) (ch : String) : Prop :=
  ∀ acts : List (Act V),
    (∀ v, c.differs ((acts.foldl (World.act c) w).val e ch) v = true → ((acts.foldl (World.act c) w).set c e ch v).2 = true) ∧
    (∀ es s p n, (n, e) ∈ selected c es → ch ∈ (c.chans e).filter s → ((acts.foldl (World.act c) w).start c es s p).2 = true)

theorem stuck_of_dead (c : Cfg V) (w : World V) (e : Nat) (ch : String) (h : w.em e ch = .dead) : Stuck c w e ch := by
  intro acts
  have hd : (acts.foldl (World.act c) w).em e ch = .dead := by
    induction acts generalizing w with
    | nil => exact h
    | cons a acts ih => exact ih _ (dead_act c w a e ch h)
  generalize acts.foldl (World.act c) w = x at hd
  refine ⟨fun v hv => ?_, fun es s p n hm hch => ?_⟩
  · unfold World.set
    simp only [hv, if_true, hd]
  · have hk := (openAll_keep c s p (selected c es) x e ch (by simp [hd])).2 n hm hch
    rw [World.start]
    rcases hx : x.openAll c s p (selected c es) with ⟨w1, b⟩
    rw [hx] at hk
    simp only at hk
    subst hk
    rfl

/-- C88: recording never disturbs what it records: before, and at any time during a session, no assignment to any
channel of any environment raises, and the value is the one assigned. -/
theorem C88_undisturbed (c : Cfg V) (hc : c.Ok) (envSel sel : String → Bool) (path : String) (w : World V) (hi : Idle w)
    (ha : NoAlias c envSel sel) (ops : List (Op V)) (e : Nat) (ch : String) (v : V) :
    ((w.set c e ch v).2 = false ∧ (w.set c e ch v).1.val e ch = v) ∧
    ((((w.start c envSel sel path).1.run c ops).set c e ch v).2 = false ∧
      (((w.start c envSel sel path).1.run c ops).set c e ch v).1.val e ch = v) := by
  have key : ∀ x : World V, x.em e ch ≠ .dead → (x.set c e ch v).2 = false ∧ (x.set c e ch v).1.val e ch = v := by
    intro x hx
    unfold World.set
    by_cases hd : c.differs (x.val e ch) v = true
    · simp only [hd, if_true]
      cases hm : x.em e ch with
      | off => exact ⟨rfl, set2_self _ _ _ _⟩
      | live n p => exact ⟨rfl, set2_self _ _ _ _⟩
      | dead => exact absurd hm hx
    · simp only [hd, Bool.false_eq_true, if_false]
      exact ⟨trivial, set2_self _ _ _ _⟩
  refine ⟨key w (by rw [hi e ch]; exact fun h => nomatch h), key _ ?_⟩
  obtain ⟨-, hl, -⟩ := live_start c hc envSel sel path w hi ha
  have h := live_run c hc envSel sel path w ops [] _ hl
  by_cases hs : ∃ n, (n, e) ∈ selected c envSel ∧ ch ∈ (c.chans e).filter sel
  · obtain ⟨n, hm, hch⟩ := hs
    rw [h.em n e hm ch hch]; exact fun h => nomatch h
  · rw [h.off e ch (fun n hm hch => hs ⟨n, hm, hch⟩)]; exact fun h => nomatch h

/-- C88 fails when the session ends by an exception: no metadata is written, so that (unless there
was an earlier session) nothing can be loaded; and every channel that was recorded is stuck. -/
theorem C88_exception_fails (c : Cfg V) (hc : c.Ok) (envSel sel : String → Bool) (path : String) (w : World V) (hi : Idle w)
    (ha : NoAlias c envSel sel) (ops : List (Op V)) :
    (w.info = none → ((w.start c envSel sel path).1.run c ops).crash.load = none) ∧
    ∀ n e, (n, e) ∈ selected c envSel → ∀ ch ∈ (c.chans e).filter sel,
      Stuck c ((w.start c envSel sel path).1.run c ops).crash e ch := by
  obtain ⟨h1, h2⟩ := openAll_spec c hc sel path (selected c envSel) w (selected_names c hc envSel) (fun _ e _ ch _ => hi e ch) ha
  obtain ⟨-, hl, -⟩ := live_start c hc envSel sel path w hi ha
  have h := live_run c hc envSel sel path w ops [] _ hl
  refine ⟨fun hinfo => ?_, fun n e hm ch hch => ?_⟩
  · have hrun : ∀ (ops : List (Op V)) (x : World V), (x.run c ops).info = x.info := by
      intro ops
      induction ops with
      | nil => intro x; rfl
      | cons op ops ih =>
        intro x
        show ((x.step c op).run c ops).info = _
        rw [ih]
        cases op with
        | setField _ _ _ => rfl
        | set e ch v =>
          show (x.set c e ch v).1.info = _
          unfold World.set
          by_cases hd : c.differs (x.val e ch) v = true
          · simp only [hd, if_true]; cases x.em e ch <;> rfl
          · simp only [hd, Bool.false_eq_true, if_false]
    have : ((w.start c envSel sel path).1.run c ops).crash.info = none := by
      show ((w.start c envSel sel path).1.run c ops).info = none
      rw [hrun, World.start]
      rcases hx : w.openAll c sel path (selected c envSel) with ⟨w1, b⟩
      rw [hx] at h1 h2
      simp only at h1 h2
      subst h1
      show w1.info = none
      rw [h2.info, hinfo]
    rw [World.load, this]
  · refine stuck_of_dead c _ e ch ?_
    show (match ((w.start c envSel sel path).1.run c ops).em e ch with | .live _ _ => Em.dead | x => x) = .dead
    rw [h.em n e hm ch hch]

theorem openEnv_on (c : Cfg V) (w : World V) (sel : String → Bool) (path n : String) (e : Nat)
    (h : (w.openEnv c sel path n e).2 = false) : ∀ ch ∈ (c.chans e).filter sel, (w.openEnv c sel path n e).1.em e ch ≠ .off := by
  have hg : ∀ (l : List String) (x : World V), (x.openChans n path e l).2 = false →
      ∀ ch ∈ l, (x.openChans n path e l).1.em e ch ≠ .off := by
    intro l
    induction l with
    | nil => intro _ _ _ h; cases h
    | cons a l ih =>
      intro x hx ch hch
      rw [World.openChans] at hx ⊢
      by_cases ho : x.em e a ≠ .off
      · rw [World.openChan, if_pos ho] at hx; exact absurd hx (by simp)
      · rw [World.openChan, if_neg ho] at hx ⊢
        simp only at hx ⊢
        rcases List.mem_cons.mp hch with rfl | hch
        · have hon : ({ x.write n path (ch, x.val e ch) with em := set2 x.em e ch (.live n path) } : World V).em e ch ≠ .off := by
            show set2 x.em e ch (.live n path) e ch ≠ .off
            rw [set2_self]; simp
          rw [(openChans_keep _ n path e l e ch hon).1]; exact hon
        · exact ih _ hx ch hch
  exact hg _ _ h

theorem alias_refused (c : Cfg V) (sel : String → Bool) (path : String) (l1 l2 l3 : List (String × Nat)) (n m : String) (e : Nat)
    (ch : String) (hch : ch ∈ (c.chans e).filter sel) (w : World V) :
    (w.openAll c sel path (l1 ++ (n, e) :: l2 ++ (m, e) :: l3)).2 = true := by
  induction l1 generalizing w with
  | nil =>
    show (w.openAll c sel path ((n, e) :: (l2 ++ (m, e) :: l3))).2 = true
    rw [World.openAll]
    rcases hx : w.openEnv c sel path n e with ⟨w2, b⟩
    cases b
    · simp only
      have hon := openEnv_on c w sel path n e (by rw [hx]) ch hch
      rw [hx] at hon
      exact (openAll_keep c sel path _ w2 e ch hon).2 m (by simp) hch
    · rfl
  | cons q l1 ih =>
    obtain ⟨a, k⟩ := q
    show (w.openAll c sel path ((a, k) :: (l1 ++ (n, e) :: l2 ++ (m, e) :: l3))).2 = true
    rw [World.openAll]
    rcases hx : w.openEnv c sel path a k with ⟨w2, b⟩
    cases b
    · exact ih w2
    · rfl

/-- C88 fails for an environment known by two names that are both selected: the session can not be
started. -/
theorem C88_alias_fails (c : Cfg V) (envSel sel : String → Bool) (path : String) (w : World V)
    (l1 l2 l3 : List (String × Nat)) (n m : String) (e : Nat) (hl : selected c envSel = l1 ++ (n, e) :: l2 ++ (m, e) :: l3)
    (ch : String) (hch : ch ∈ (c.chans e).filter sel) : (w.start c envSel sel path).2 = true := by
  have := alias_refused c sel path l1 l2 l3 n m e ch hch w
  rw [← hl] at this
  rw [World.start]
  rcases hx : w.openAll c sel path (selected c envSel) with ⟨w1, b⟩
  rw [hx] at this
  simp only at this
  subst this
  rfl

/-! ### A case -/

def demo : Cfg Int := ⟨[("a", 0), ("b", 1), ("c", 2)], fun _ => ["x", "y"], fun a b => a ≠ b⟩
def demoWorld : World Int := ⟨fun _ _ => 0, fun _ _ => 0, fun _ _ => .off, fun _ _ => none, fun _ => none, none, none⟩

theorem demo_ok : demo.Ok := by
  refine ⟨by decide, fun e => by show ["x", "y"].Nodup; decide, fun a b h => ?_⟩
  simpa [demo] using h

/-- Environments a and b, channel x: two changes, an assignment of the same value, one of another
channel and one of an environment that is not selected. -/
theorem C88_cases :
    NoAlias demo (fun n => n != "c") (· == "x") ∧ Idle demoWorld ∧
    (demoWorld.session demo (fun n => n != "c") (· == "x") eventOut
      [.set 0 "x" 5, .set 0 "x" 5, .set 1 "x" 7, .set 0 "y" 3, .set 2 "x" 1, .set 0 "x" 6]).read "a" eventOut
      = some [("x", 0), ("x", 5), ("x", 6)] ∧
    (demoWorld.session demo (fun n => n != "c") (· == "x") eventOut [.set 2 "x" 1]).read "c" eventOut = none ∧
    changes demo.differs 0 "x" 0 [.set 0 "x" 5, .set 0 "x" 5, .set 1 "x" 7, .set 0 "x" 6] = [5, 6] ∧
    -- the same environment under two names
    (demoWorld.start ⟨[("a", 0), ("b", 0)], fun _ => ["x"], fun a b => a ≠ b⟩ (fun _ => true) (fun _ => true) eventOut).2 = true := by
  refine ⟨?_, fun _ _ => rfl, by decide +kernel, by decide +kernel, by decide +kernel, by decide +kernel⟩
  have : selected demo (fun n => n != "c") = [("a", 0), ("b", 1)] := by decide
  rw [NoAlias, this]
  simp

end Verif.Event.Record
