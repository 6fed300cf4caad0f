import Verif.Base

/-!
C84: two websocket connections (net/websocket/connection.py 44–93; the reading and writing tasks and the echo of
net/connection.py 321–409).

A connection has one queue and one writing task for texts and one for binary messages. Its protocol (the library
`websockets`, assumed) delivers frames in the order they were sent; after it was closed, frames that arrived can
still be read and a send raises. A round of a task is one step: a send cut off by `disable` is left out, and so are
handlers that raise. Sides are `false` and `true`; what a side does with a frame is a parameter.
-/
namespace Verif.Net.Websocket
open Verif

inductive Frame where
  | text (s : String)
  | bin (b : List UInt8)
  deriving DecidableEq, Repr

def Frame.isText : Frame → Bool
  | .text _ => true
  | .bin _ => false

/-- `len(data)`: characters of a text, bytes of a binary message. -/
def Frame.len : Frame → Nat
  | .text s => s.length
  | .bin b => b.length

/-- What a side has to say to a frame: the messages it sends, and whether it was processed. -/
abbrev Handler := Frame → List Frame × Bool

/-- `EchoConnection`, net/connection.py 386–397. -/
def echo : Handler := fun f => ([f], true)

structure Side where
  enabled : Bool
  /-- `_text_messages` (`true`) and `_binary_messages` (`false`) -/
  queue : Bool → List Frame
  /-- messages read -/
  got : List Frame
  tx : Nat
  rx : Nat
  /-- what was asked to be sent, what was handed over to an open protocol, what a closed one refused -/
  asked : List Frame
  wrote : List Frame
  lost : List Frame

def Side.new : Side := ⟨true, fun _ => [], [], 0, 0, [], [], []⟩

structure Pair where
  side : Bool → Side
  /-- frames that a side can read -/
  wire : Bool → List Frame
  isOpen : Bool

def Pair.new : Pair := ⟨fun _ => .new, fun _ => [], true⟩

/-- `send_text`, `send_binary`, net/connection.py 164–170. -/
def Side.send (s : Side) (f : Frame) : Side :=
  { s with queue := fun k => if k = f.isText then s.queue k ++ [f] else s.queue k, asked := s.asked ++ [f] }

def Side.sendAll (s : Side) (fs : List Frame) : Side := fs.foldl Side.send s

/-- `disable`, as far as the reading and writing tasks go: they are cancelled. -/
def Side.disable (s : Side) : Side := { s with enabled := false }

def set {α : Type} (f : Bool → α) (p : Bool) (x : α) : Bool → α := fun q => if q = p then x else f q

inductive Ev where
  | send (p : Bool) (f : Frame)
  /-- a round of the writing task of texts or binary messages -/
  | write (p : Bool) (k : Bool)
  /-- a round of the reading task -/
  | read (p : Bool)
  | disable (p : Bool)
  /-- the end of `process` of a disabled connection closes the protocol -/
  | close (p : Bool)

/-- A round of `_process_write_text` or `_process_write_binary` with `_send_text_message` or
`_send_binay_message`: the count goes up although the protocol was closed. -/
def Pair.write (w : Pair) (p k : Bool) : Pair :=
  let s := w.side p
  if s.enabled then
    match s.queue k with
    | [] => w
    | f :: r =>
      let s := { s with queue := set s.queue k r, tx := s.tx + f.len }
      if w.isOpen then
        { w with side := set w.side p { s with wrote := s.wrote ++ [f] }, wire := set w.wire (!p) (w.wire (!p) ++ [f]) }
      else { w with side := set w.side p { s with lost := s.lost ++ [f], enabled := false } }
  else w

/-- A round of `_process_read` with `_await_message`. -/
def Pair.read (h : Bool → Handler) (w : Pair) (p : Bool) : Pair :=
  let s := w.side p
  if s.enabled then
    match w.wire p with
    | [] => if w.isOpen then w else { w with side := set w.side p s.disable }
    | f :: r =>
      let s := ({ s with got := s.got ++ [f], rx := s.rx + f.len } : Side).sendAll (h p f).1
      { w with side := set w.side p (if (h p f).2 then s else s.disable), wire := set w.wire p r }
  else w

def step (h : Bool → Handler) (w : Pair) : Ev → Pair
  | .send p f => { w with side := set w.side p ((w.side p).send f) }
  | .write p k => w.write p k
  | .read p => w.read h p
  | .disable p => { w with side := set w.side p (w.side p).disable }
  | .close p => if (w.side p).enabled then w else { w with isOpen := false }

def run (h : Bool → Handler) (w : Pair) (t : List Ev) : Pair := t.foldl (step h) w

/-! ### Invariants -/

/-- The messages of one type. -/
def only (k : Bool) (l : List Frame) : List Frame := l.filter (fun f => f.isText = k)

theorem only_append (k : Bool) (a b : List Frame) : only k (a ++ b) = only k a ++ only k b := List.filter_append _ _

theorem only_one (k : Bool) (f : Frame) : only k [f] = if f.isText = k then [f] else [] := by
  by_cases h : f.isText = k <;> simp [only, h]

structure SideInv (s : Side) : Prop where
  kinds : ∀ k, ∀ f ∈ s.queue k, f.isText = k
  flow : ∀ k, only k s.asked = only k s.wrote ++ only k s.lost ++ s.queue k
  lost : s.lost ≠ [] → s.enabled = false
  txs : s.tx = (s.wrote.map Frame.len).sum + (s.lost.map Frame.len).sum
  rxs : s.rx = (s.got.map Frame.len).sum

theorem inv_new : SideInv Side.new := ⟨by simp [Side.new], by simp [Side.new, only], by simp [Side.new], rfl, rfl⟩

theorem inv_send (s : Side) (f : Frame) (h : SideInv s) : SideInv (s.send f) := by
  refine ⟨?_, ?_, h.lost, h.txs, h.rxs⟩
  · intro k g hg
    simp only [Side.send] at hg
    split at hg
    · rename_i hk
      rcases List.mem_append.mp hg with hg | hg
      · exact h.kinds k g hg
      · rw [List.mem_singleton.mp hg, hk]
    · exact h.kinds k g hg
  · intro k
    simp only [Side.send]
    rw [only_append, h.flow k, only_one]
    by_cases hk : k = f.isText
    · simp [hk]
    · have : ¬ f.isText = k := fun e => hk e.symm
      simp [hk, this]

theorem inv_sendAll (fs : List Frame) (s : Side) (h : SideInv s) : SideInv (s.sendAll fs) := by
  induction fs generalizing s with
  | nil => exact h
  | cons f fs ih => exact ih _ (inv_send s f h)

theorem inv_disable (s : Side) (h : SideInv s) : SideInv s.disable := ⟨h.kinds, h.flow, fun _ => rfl, h.txs, h.rxs⟩

theorem inv_got (s : Side) (f : Frame) (h : SideInv s) : SideInv { s with got := s.got ++ [f], rx := s.rx + f.len } :=
  ⟨h.kinds, h.flow, h.lost, h.txs, by simp [h.rxs]⟩

theorem sendAll_keeps (fs : List Frame) (s : Side) :
    (s.sendAll fs).got = s.got ∧ (s.sendAll fs).wrote = s.wrote ∧ (s.sendAll fs).asked = s.asked ++ fs ∧
    (s.sendAll fs).enabled = s.enabled ∧ (s.sendAll fs).lost = s.lost := by
  induction fs generalizing s with
  | nil => simp [Side.sendAll]
  | cons f fs ih =>
    obtain ⟨a, b, c, d, e⟩ := ih (s.send f)
    refine ⟨a, b, ?_, d, e⟩
    rw [Side.sendAll, List.foldl_cons]
    rw [Side.sendAll] at c
    rw [c]
    simp [Side.send, List.append_assoc]

theorem set_same {α : Type} (f : Bool → α) (p : Bool) (x : α) : set f p x p = x := by simp [set]

theorem set_other {α : Type} (f : Bool → α) (p q : Bool) (x : α) (h : q ≠ p) : set f p x q = f q := by simp [set, h]

structure Inv (w : Pair) : Prop where
  sides : ∀ p, SideInv (w.side p)
  wire : ∀ p, (w.side p).wrote = (w.side (!p)).got ++ w.wire (!p)

theorem not_ne (p : Bool) : (!p) ≠ p := by cases p <;> decide

theorem inv_upd (w : Pair) (p : Bool) (s : Side) (hw : Inv w) (hs : SideInv s) (h1 : s.wrote = (w.side p).wrote)
    (h2 : s.got = (w.side p).got) (o : Bool) : Inv { w with side := set w.side p s, isOpen := o } := by
  refine ⟨?_, ?_⟩
  · intro q
    by_cases hq : q = p
    · subst hq; simp only [set_same]; exact hs
    · simp only [set_other _ _ _ _ hq]; exact hw.sides q
  · intro q
    dsimp only
    by_cases hq : q = p
    · subst hq
      rw [set_same, set_other _ _ _ _ (not_ne q), h1]
      exact hw.wire q
    · rw [set_other _ _ _ _ hq]
      have hp : (!q) = p := by cases q <;> cases p <;> simp_all
      rw [hp, set_same, h2, ← hp]
      exact hw.wire q

theorem inv_step (h : Bool → Handler) (w : Pair) (e : Ev) (hw : Inv w) : Inv (step h w e) := by
  cases e with
  | send p f => exact inv_upd w p _ hw (inv_send _ f (hw.sides p)) rfl rfl w.isOpen
  | disable p => exact inv_upd w p _ hw (inv_disable _ (hw.sides p)) rfl rfl w.isOpen
  | close p =>
    simp only [step]
    split
    · exact hw
    · exact ⟨hw.sides, hw.wire⟩
  | write p k =>
    simp only [step, Pair.write]
    by_cases he : (w.side p).enabled = true
    · rw [if_pos he]
      cases hq : (w.side p).queue k with
      | nil => exact hw
      | cons f r =>
        have hs := hw.sides p
        have hk : f.isText = k := hs.kinds k f (by rw [hq]; exact List.mem_cons_self)
        have hl : (w.side p).lost = [] := by
          by_cases hl : (w.side p).lost = []
          · exact hl
          · have := hs.lost hl; rw [he] at this; cases this
        have kinds : ∀ j, ∀ g ∈ set (w.side p).queue k r j, g.isText = j := by
          intro j g hg
          by_cases hj : j = k
          · subst hj
            rw [set_same] at hg
            exact hs.kinds j g (by rw [hq]; exact List.mem_cons_of_mem _ hg)
          · rw [set_other _ _ _ _ hj] at hg
            exact hs.kinds j g hg
        dsimp only
        cases ho : w.isOpen with
        | true =>
          simp only [if_true]
          refine ⟨?_, ?_⟩
          · intro q
            by_cases hqp : q = p
            · subst hqp
              simp only [set_same]
              refine ⟨kinds, ?_, by rw [hl]; intro h; exact absurd rfl h, ?_, hs.rxs⟩
              · intro j
                dsimp only
                rw [hs.flow j, hl, only_append, only_one]
                by_cases hj : j = k
                · subst hj; rw [set_same, hq, if_pos hk]; simp [only]
                · have : ¬ f.isText = j := fun e => hj (by rw [← e, hk])
                  rw [set_other _ _ _ _ hj, if_neg this]; simp [only]
              · simp [hs.txs, hl]
            · simp only [set_other _ _ _ _ hqp]; exact hw.sides q
          · intro q
            dsimp only
            by_cases hqp : q = p
            · subst hqp
              rw [set_same, set_other _ _ _ _ (not_ne q), set_same]
              dsimp only
              rw [hw.wire q, List.append_assoc]
            · rw [set_other _ _ _ _ hqp]
              have hp : (!q) = p := by cases q <;> cases p <;> simp_all
              rw [hp, set_same, set_other w.wire (!p) p _ (fun e => not_ne p e.symm), ← hp]
              exact hw.wire q
        | false =>
          simp only [Bool.false_eq_true, if_false]
          have := inv_upd w p { w.side p with queue := set (w.side p).queue k r, tx := (w.side p).tx + f.len, lost := (w.side p).lost ++ [f], enabled := false } hw (by
              refine ⟨kinds, ?_, fun _ => rfl, ?_, hs.rxs⟩
              · intro j
                dsimp only
                rw [hs.flow j, hl, only_append, only_one]
                by_cases hj : j = k
                · subst hj; rw [set_same, hq, if_pos hk]; simp [only]
                · have : ¬ f.isText = j := fun e => hj (by rw [← e, hk])
                  rw [set_other _ _ _ _ hj, if_neg this]; simp [only]
              · simp [hs.txs, hl]) rfl rfl w.isOpen
          rw [ho] at this
          exact this
    · rw [if_neg he]; exact hw
  | read p =>
    simp only [step, Pair.read]
    by_cases he : (w.side p).enabled = true
    · rw [if_pos he]
      cases hq : w.wire p with
      | nil =>
        dsimp only
        split
        · exact hw
        · exact inv_upd w p _ hw (inv_disable _ (hw.sides p)) rfl rfl w.isOpen
      | cons f r =>
        dsimp only
        have k := sendAll_keeps (h p f).1 { w.side p with got := (w.side p).got ++ [f], rx := (w.side p).rx + f.len }
        have hi := inv_sendAll (h p f).1 _ (inv_got _ f (hw.sides p))
        generalize ({ w.side p with got := (w.side p).got ++ [f], rx := (w.side p).rx + f.len } : Side).sendAll (h p f).1 = s at k hi
        obtain ⟨k1, k2, -, -, -⟩ := k
        have hi' : SideInv (if (h p f).2 = true then s else s.disable) := by
          split
          · exact hi
          · exact inv_disable s hi
        have k1' : (if (h p f).2 = true then s else s.disable).got = (w.side p).got ++ [f] := by split <;> exact k1
        have k2' : (if (h p f).2 = true then s else s.disable).wrote = (w.side p).wrote := by split <;> exact k2
        generalize (if (h p f).2 = true then s else s.disable) = s' at hi' k1' k2'
        refine ⟨?_, ?_⟩
        · intro q
          by_cases hqp : q = p
          · subst hqp; simp only [set_same]; exact hi'
          · simp only [set_other _ _ _ _ hqp]; exact hw.sides q
        · intro q
          dsimp only
          by_cases hqp : q = p
          · subst hqp
            rw [set_same, set_other _ _ _ _ (not_ne q), set_other _ _ _ _ (not_ne q), k2']
            exact hw.wire q
          · rw [set_other _ _ _ _ hqp]
            have hp : (!q) = p := by cases q <;> cases p <;> simp_all
            rw [hp, set_same, set_same, k1', hw.wire q, hp, hq, List.append_assoc]
            rfl
    · rw [if_neg he]; exact hw

theorem inv_run (h : Bool → Handler) (t : List Ev) (w : Pair) (hw : Inv w) : Inv (run h w t) := by
  induction t generalizing w with
  | nil => exact hw
  | cons e t ih => exact ih _ (inv_step h w e hw)

theorem inv_init : Inv Pair.new := ⟨fun _ => inv_new, fun _ => rfl⟩

/-! ### Claims -/

/-- Whatever the order of events and whatever the sides do with messages: the texts a side has read are the first
texts the other was asked to send, in order; the same for binary messages. -/
theorem C84_order (h : Bool → Handler) (t : List Ev) (p k : Bool) :
    only k ((run h .new t).side (!p)).got <+: only k ((run h .new t).side p).asked := by
  have hi := inv_run h t _ inv_init
  rw [(hi.sides p).flow k, hi.wire p, only_append, List.append_assoc, List.append_assoc]
  exact List.prefix_append _ _

/-- Nothing is lost while a side is enabled: once its queues and the wire are empty, the other has read everything
of each type. -/
theorem C84_all (h : Bool → Handler) (t : List Ev) (p : Bool)
    (he : ((run h .new t).side p).enabled = true) (hq : ∀ k, ((run h .new t).side p).queue k = [])
    (hw : (run h .new t).wire (!p) = []) (k : Bool) :
    only k ((run h .new t).side (!p)).got = only k ((run h .new t).side p).asked := by
  have hi := inv_run h t _ inv_init
  have hl : ((run h .new t).side p).lost = [] := by
    by_cases hl : ((run h .new t).side p).lost = []
    · exact hl
    · have := (hi.sides p).lost hl; rw [he] at this; cases this
  rw [(hi.sides p).flow k, hi.wire p, hw, hl, hq k]
  simp [only]

/-- What an echoing side, that is asked to send nothing else, was asked to send is what it read. -/
theorem echo_asked (h : Bool → Handler) (p : Bool) (hp : h p = echo) (t : List Ev) (ht : ∀ f, Ev.send p f ∉ t) :
    ((run h .new t).side p).asked = ((run h .new t).side p).got := by
  have key : ∀ (t : List Ev) (w : Pair), (∀ f, Ev.send p f ∉ t) → (w.side p).asked = (w.side p).got →
      ((run h w t).side p).asked = ((run h w t).side p).got := by
    intro t
    induction t with
    | nil => intro w _ hw; exact hw
    | cons e t ih =>
      intro w ht hw
      refine ih (step h w e) (fun f hf => ht f (List.mem_cons_of_mem _ hf)) ?_
      have same : ∀ (q : Bool) (s : Side), (q = p → s.asked = s.got) → (set w.side q s p).asked = (set w.side q s p).got := by
        intro q s hs
        by_cases hqp : p = q
        · subst hqp; rw [set_same]; exact hs rfl
        · rw [set_other _ _ _ _ hqp]; exact hw
      cases e with
      | send q f =>
        apply same
        rintro rfl
        exact absurd List.mem_cons_self (ht f)
      | disable q => apply same; rintro rfl; exact hw
      | close q => simp only [step]; split <;> exact hw
      | write q k =>
        simp only [step, Pair.write]
        split
        · split
          · exact hw
          · split
            · apply same; rintro rfl; exact hw
            · apply same; rintro rfl; exact hw
        · exact hw
      | read q =>
        simp only [step, Pair.read]
        split
        · split
          · split
            · exact hw
            · apply same; rintro rfl; exact hw
          · apply same
            rintro rfl
            rw [hp]
            simp only [echo, if_true]
            rw [(sendAll_keeps _ _).2.2.1, (sendAll_keeps _ _).1]
            dsimp only
            rw [hw]
        · exact hw
  exact key t _ ht rfl

/-- An echo gives texts and binary messages back, each in order: what came back is a beginning of what was sent,
and all of it once nothing is under way and both sides are enabled. -/
theorem C84_echo (h : Bool → Handler) (p : Bool) (hp : h (!p) = echo) (t : List Ev) (ht : ∀ f, Ev.send (!p) f ∉ t) (k : Bool) :
    only k ((run h .new t).side p).got <+: only k ((run h .new t).side p).asked ∧
    ((∀ q, ((run h .new t).side q).enabled = true ∧ (run h .new t).wire q = [] ∧ ∀ k, ((run h .new t).side q).queue k = []) →
      only k ((run h .new t).side p).got = only k ((run h .new t).side p).asked) := by
  have h1 := C84_order h t p k
  have h2 := C84_order h t (!p) k
  rw [Bool.not_not, echo_asked h (!p) hp t ht] at h2
  refine ⟨h2.trans h1, fun hq => ?_⟩
  have e1 := C84_all h t p (hq p).1 (hq p).2.2 (hq (!p)).2.1 k
  have e2 := C84_all h t (!p) (hq (!p)).1 (hq (!p)).2.2 (by rw [Bool.not_not]; exact (hq p).2.1) k
  rw [Bool.not_not, echo_asked h (!p) hp t ht] at e2
  exact e2.trans e1

/-- The order of a text and a binary message is not kept: the second may be read first. -/
theorem C84_mixed_fails (h : Bool → Handler) (s : String) (b : List UInt8) (hh : (h true (.bin b)).2 = true) :
    ((run h .new [.send false (.text s), .send false (.bin b), .write false false, .write false true, .read true,
      .read true]).side true).got = [.bin b, .text s] := by
  simp only [run, List.foldl_cons, List.foldl_nil, step, Pair.new, Pair.write, Pair.read, Side.send, Side.new, set,
    Frame.isText, Bool.not_false, if_true, Bool.false_eq_true, if_false, Bool.true_eq_false, List.nil_append, hh, reduceCtorEq,
    (sendAll_keeps _ _).1, (sendAll_keeps _ _).2.2.2.1, List.cons_append]
  split <;> simp [(sendAll_keeps _ _).1, Side.disable]

/-- The counts: what was read, and what was written or refused. -/
theorem C84_counts (h : Bool → Handler) (t : List Ev) (p : Bool) :
    ((run h .new t).side p).rx = (((run h .new t).side p).got.map Frame.len).sum ∧
    ((run h .new t).side p).tx = (((run h .new t).side p).wrote.map Frame.len).sum
      + (((run h .new t).side p).lost.map Frame.len).sum :=
  ⟨((inv_run h t _ inv_init).sides p).rxs, ((inv_run h t _ inv_init).sides p).txs⟩

/-- A message that finds the protocol closed is counted as sent. -/
theorem C84_counted_fails (w : Pair) (p k : Bool) (f : Frame) (r : List Frame) (he : (w.side p).enabled = true)
    (hq : (w.side p).queue k = f :: r) (ho : w.isOpen = false) :
    ((w.write p k).side p).tx = (w.side p).tx + f.len ∧ ((w.write p k).side p).wrote = (w.side p).wrote ∧
    (w.write p k).wire = w.wire := by
  simp [Pair.write, he, hq, ho, set]

/-- What is under way when a side is disabled is not read, whatever happens next. -/
theorem C84_unread_fails (h : Bool → Handler) (w : Pair) (p : Bool) (he : (w.side p).enabled = false) (t : List Ev) :
    ((run h w t).side p).got = (w.side p).got ∧ w.wire p <+: (run h w t).wire p := by
  induction t generalizing w with
  | nil => exact ⟨rfl, List.prefix_refl _⟩
  | cons e t ih =>
    have key : ((step h w e).side p).enabled = false ∧ ((step h w e).side p).got = (w.side p).got ∧
        w.wire p <+: (step h w e).wire p := by
      cases e with
      | send q f =>
        by_cases hq : p = q
        · subst hq; simp only [step, set_same]; exact ⟨he, rfl, List.prefix_refl _⟩
        · simp only [step, set_other _ _ _ _ hq]; exact ⟨he, trivial, List.prefix_refl _⟩
      | disable q =>
        by_cases hq : p = q
        · subst hq; simp only [step, set_same]; exact ⟨rfl, rfl, List.prefix_refl _⟩
        · simp only [step, set_other _ _ _ _ hq]; exact ⟨he, trivial, List.prefix_refl _⟩
      | close q => simp only [step]; split <;> exact ⟨he, rfl, List.prefix_refl _⟩
      | write q k =>
        simp only [step, Pair.write]
        split
        · rename_i hen
          have hq : p ≠ q := by rintro rfl; rw [he] at hen; cases hen
          split
          · exact ⟨he, rfl, List.prefix_refl _⟩
          · split
            · simp only [set_other _ _ _ _ hq]
              have hp : p = !q := by cases p <;> cases q <;> simp_all
              subst hp
              rw [set_same]
              exact ⟨he, trivial, List.prefix_append _ _⟩
            · simp only [set_other _ _ _ _ hq]; exact ⟨he, trivial, List.prefix_refl _⟩
        · exact ⟨he, rfl, List.prefix_refl _⟩
      | read q =>
        simp only [step, Pair.read]
        split
        · rename_i hen
          have hq : p ≠ q := by rintro rfl; rw [he] at hen; cases hen
          split
          · split
            · exact ⟨he, rfl, List.prefix_refl _⟩
            · simp only [set_other _ _ _ _ hq]; exact ⟨he, trivial, List.prefix_refl _⟩
          · simp only [set_other _ _ _ _ hq]; exact ⟨he, trivial, List.prefix_refl _⟩
        · exact ⟨he, rfl, List.prefix_refl _⟩
    obtain ⟨k1, k2, k3⟩ := key
    obtain ⟨i1, i2⟩ := ih (step h w e) k1
    exact ⟨i1.trans k2, k3.trans i2⟩

theorem C84_cases :
    ((run (fun _ => echo) .new [.send false (.text "a"), .send false (.text "b"), .write false true, .read true,
      .write false true, .write true true, .read true, .write true true, .read false]).side false).got = [.text "a"] ∧
    ((run (fun _ => echo) .new [.send false (.text "é"), .write false true]).side false).tx = 1 ∧
    "é".utf8ByteSize = 2 ∧
    ((run (fun _ => echo) .new [.send false (.text "a"), .disable true, .close true, .write false true]).side false).lost
      = [.text "a"] := by
  refine ⟨?_, ?_, ?_, ?_⟩ <;> decide +kernel

end Verif.Net.Websocket
