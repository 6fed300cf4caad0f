import Verif.Base
/-!
C126: sound in the browser: `data/js/audio.js` (the processor) and `data/js/tab/sound.js` 7–54 (the button).

Times are rational numbers (doubles in the code); the wave is any function of the time. Assumed of the browser: code
between two `await`s is one step; `suspend()` and `resume()` have their effect when their promise is fulfilled; the
context made by a click is in any state at first. Whether a module is registered twice is left out (the second
registration of a name is refused by the browser, `addModule` of an address already loaded does nothing).
-/
namespace Verif.Audio
open Verif

/-! ### The processor -/

/-- `sampleRate` (`null` at first), `samplePeriod`, `time`, audio.js 3–17. -/
structure Proc where
  rate : Option Rat
  period : Rat
  time : Rat
  deriving DecidableEq, Repr

def Proc.new : Proc := ⟨none, 0, 0⟩

/-- `onmessage`, lines 10–15. -/
def Proc.message (p : Proc) (rate : Rat) : Proc := { p with rate := some rate, period := 1 / rate }

/-- `nextSample`, lines 18–25. -/
def Proc.next {V : Type} (wave : Rat → V) (p : Proc) : V × Proc := (wave p.time, { p with time := p.time + p.period })

/-- The loop of `process`, lines 35–48: the values of one block. -/
def Proc.block {V : Type} (wave : Rat → V) : Nat → Proc → List V × Proc
  | 0, p => ([], p)
  | n + 1, p =>
    let q := p.next wave
    let r := Proc.block wave n q.2
    (q.1 :: r.1, r.2)

/-- Lines 28–31: a rate that is `null` or 0 counts as unknown. -/
def Proc.ready (p : Proc) : Bool :=
  match p.rate with
  | some r => r ≠ 0
  | none => false

/-- `process`, lines 27–51, for outputs with the given numbers of channels: the blocks written to every channel of
every output; nothing is written before the rate is known. -/
def Proc.process {V : Type} (wave : Rat → V) (shape : List Nat) (n : Nat) (p : Proc) :
    Option (List (List (List V))) × Proc :=
  if p.ready then
    let b := p.block wave n
    (some (shape.map fun k => List.replicate k b.1), b.2)
  else (none, p)

/-- What one channel is given over several blocks (`[]` where nothing is written). -/
def Proc.heard {V : Type} (wave : Rat → V) (shape : List Nat) (out chan : Nat) : List Nat → Proc → List V × Proc
  | [], p => ([], p)
  | n :: ns, p =>
    let r := p.process wave shape n
    let t := Proc.heard wave shape out chan ns r.2
    (((r.1.bind fun o => o[out]?.bind fun c => c[chan]?).getD []) ++ t.1, t.2)

theorem block_spec {V : Type} (wave : Rat → V) (n : Nat) (p : Proc) :
    (p.block wave n).1 = (List.range n).map (fun (k : Nat) => wave (p.time + k * p.period)) ∧
    (p.block wave n).2 = { p with time := p.time + n * p.period } := by
  induction n generalizing p with
  | zero => simp [Proc.block, Rat.zero_mul, Rat.add_zero]
  | succ n ih =>
    simp only [Proc.block]
    obtain ⟨h1, h2⟩ := ih (p.next wave).2
    constructor
    · rw [h1, List.range_succ_eq_map, List.map_cons, List.map_map]
      simp only [Proc.next]
      congr 1
      · congr 1; grind
      · apply List.map_congr_left
        intro k _
        simp only [Function.comp]
        congr 1
        grind
    · rw [h2]
      simp only [Proc.next, Proc.mk.injEq, true_and]
      grind

/-- Every channel of every output is given the same sound: sample `k` since the start is the wave at `k / rate`,
however the sound is cut into blocks. -/
theorem C126_samples {V : Type} (wave : Rat → V) (shape : List Nat) (out chan k : Nat)
    (ho : shape[out]? = some k) (hc : chan < k) (rate : Rat) (hr : rate ≠ 0) (ns : List Nat) :
    ((Proc.new.message rate).heard wave shape out chan ns).1
      = (List.range ns.sum).map fun (i : Nat) => wave (i / rate) := by
  have key : ∀ (ns : List Nat) (m : Nat) (p : Proc), p.rate = some rate → p.period = 1 / rate → p.time = m / rate →
      (p.heard wave shape out chan ns).1 = (List.range ns.sum).map fun (i : Nat) => wave (((m + i : Nat) : Rat) / rate) := by
    intro ns
    induction ns with
    | nil => intros; simp [Proc.heard]
    | cons n ns ih =>
      intro m p h1 h2 h3
      have hready : p.ready = true := by simp [Proc.ready, h1, hr]
      obtain ⟨b1, b2⟩ := block_spec wave n p
      have h4 : ((p.block wave n).2).time = ((m + n : Nat) : Rat) / rate := by
        rw [b2]
        simp only [h2, h3, Rat.natCast_add]
        grind
      have := ih (m + n) (p.block wave n).2 (by rw [b2]; exact h1) (by rw [b2]; exact h2) h4
      simp only [Proc.heard, Proc.process, hready, if_true]
      rw [this, b1, List.sum_cons, List.range_add, List.map_append, List.map_map]
      have e : (Option.bind (some (shape.map fun k => List.replicate k
          ((List.range n).map fun (j : Nat) => wave (p.time + j * p.period)))) fun o => o[out]?.bind fun c => c[chan]?)
          = some ((List.range n).map fun (j : Nat) => wave (p.time + j * p.period)) := by
        simp [ho, hc]
      rw [e, Option.getD_some]
      congr 1
      · apply List.map_congr_left
        intro i _
        congr 1
        rw [h2, h3, Rat.natCast_add]
        grind
      · apply List.map_congr_left
        intro i _
        simp only [Function.comp, Nat.add_assoc]
  have := key ns 0 (Proc.new.message rate) rfl rfl (by simp [Proc.message, Proc.new]; grind)
  rw [this]
  simp

/-- Before the rate is known, or if it is said to be 0, nothing is heard and no time passes. -/
theorem C126_silent {V : Type} (wave : Rat → V) (shape : List Nat) (out chan : Nat) (ns : List Nat) (p : Proc)
    (h : p.rate = none ∨ p.rate = some 0) : p.heard wave shape out chan ns = ([], p) := by
  have hn : p.ready = false := by rcases h with h | h <;> simp [Proc.ready, h]
  induction ns with
  | nil => rfl
  | cons n ns ih => simp [Proc.heard, Proc.process, hn, ih]

/-- Another rate: the sound goes on from the time reached, in steps of the new rate. -/
theorem C126_retuned {V : Type} (wave : Rat → V) (n m : Nat) (rate rate' : Rat) (p : Proc)
    (hp : p = ((Proc.new.message rate).block wave n).2) :
    ((p.message rate').block wave m).1 = (List.range m).map fun (j : Nat) => wave (n / rate + j / rate') := by
  subst hp
  rw [(block_spec wave m _).1]
  apply List.map_congr_left
  intro j _
  rw [(block_spec wave n _).2]
  simp only [Proc.message, Proc.new]
  congr 1
  grind

/-! ### The button -/

/-- Where a click is suspended: in `addModule` (line 18), in `suspend` (line 21), at the `await` of the node it was
given (line 36), in `resume` and `suspend` of lines 51 and 53; or over. -/
inductive Pc where
  | load | hold | got (node : Nat) | resume | suspend | over
  deriving DecidableEq, Repr

/-- The variables of sound.js: the context's state (`none`: no context), the nodes made so far, `processorNode`,
`newProcessorNode`, the node that the source is connected to, the nodes that were told the rate, the clicks. -/
structure Page where
  running : Option Bool
  made : Nat
  proc : Option Nat
  node : Option Nat
  source : Option Nat
  told : List Nat
  clicks : List Pc
  deriving DecidableEq, Repr

def Page.new : Page := ⟨none, 0, none, none, none, [], []⟩

/-- Lines 44–54, without the last `await`. -/
def Page.tail (p : Page) : Page × Pc :=
  ({ p with source := match p.source with | some s => some s | none => p.node },
   if p.running = some true then .suspend else .resume)

/-- A click up to its first `await`, lines 32–36 and 12–19: `fresh` is the state of a new context. -/
def Page.click (fresh : Bool) (p : Page) : Page × Pc :=
  match p.node with
  | some _ => p.tail
  | none =>
    let p := { p with running := some (p.running.getD fresh) }
    match p.proc with
    | some n => (p, .got n)
    | none => (p, .load)

/-- A click goes on from where it is suspended. -/
def Page.resume (p : Page) : Pc → Page × Pc
  | .load => ({ p with made := p.made + 1, proc := some p.made }, .hold)
  | .hold => ({ p with running := some false }, .got (p.proc.getD 0))
  | .got n => Page.tail { p with node := some n, told := p.told ++ [n] }
  | .resume => ({ p with running := some true }, .over)
  | .suspend => ({ p with running := some false }, .over)
  | .over => (p, .over)

inductive Ev where
  /-- the button is clicked -/
  | click (fresh : Bool)
  /-- the promise that click `i` waits for is fulfilled -/
  | go (i : Nat)

def step (p : Page) : Ev → Page
  | .click fresh =>
    let r := p.click fresh
    { r.1 with clicks := r.1.clicks ++ [r.2] }
  | .go i =>
    match p.clicks[i]? with
    | some pc =>
      let r := p.resume pc
      { r.1 with clicks := r.1.clicks.set i r.2 }
    | none => p

def run (p : Page) (l : List Ev) : Page := l.foldl step p

/-- What always holds: the source is connected to a node that was told the rate, and so is `newProcessorNode`. -/
structure Inv (p : Page) : Prop where
  src : ∀ s, p.source = some s → s ∈ p.told
  node : ∀ n, p.node = some n → n ∈ p.told
  ctx : p.clicks ≠ [] → p.running.isSome = true
  none_yet : p.clicks = [] → p.node = none

theorem tail_inv {p : Page} (h1 : ∀ s, p.source = some s → s ∈ p.told) (h2 : ∀ n, p.node = some n → n ∈ p.told) :
    (∀ s, (p.tail).1.source = some s → s ∈ (p.tail).1.told) ∧ (∀ n, (p.tail).1.node = some n → n ∈ (p.tail).1.told) := by
  refine ⟨fun s hs => ?_, h2⟩
  simp only [Page.tail] at hs ⊢
  cases h : p.source with
  | some x => rw [h] at hs; exact h1 s (by rw [h]; exact hs)
  | none => rw [h] at hs; exact h2 s hs

theorem resume_inv {p : Page} (h1 : ∀ s, p.source = some s → s ∈ p.told) (h2 : ∀ n, p.node = some n → n ∈ p.told)
    (pc : Pc) :
    (∀ s, (p.resume pc).1.source = some s → s ∈ (p.resume pc).1.told) ∧
    (∀ n, (p.resume pc).1.node = some n → n ∈ (p.resume pc).1.told) := by
  cases pc with
  | load => exact ⟨h1, h2⟩
  | hold => exact ⟨h1, h2⟩
  | got n =>
    refine tail_inv (p := { p with node := some n, told := p.told ++ [n] }) (fun s hs => ?_) (fun m hm => ?_)
    · exact List.mem_append_left _ (h1 s hs)
    · simp at hm; simp [hm]
  | resume => exact ⟨h1, h2⟩
  | suspend => exact ⟨h1, h2⟩
  | over => exact ⟨h1, h2⟩

theorem resume_clicks (p : Page) (pc : Pc) : (p.resume pc).1.clicks = p.clicks := by cases pc <;> rfl

theorem resume_running (p : Page) (pc : Pc) (h : p.running.isSome = true) :
    (p.resume pc).1.running.isSome = true := by
  cases pc <;> simp [Page.resume, Page.tail, h]

theorem click_clicks (p : Page) (f : Bool) : (p.click f).1.clicks = p.clicks := by
  unfold Page.click
  split
  · rfl
  · dsimp only; split <;> rfl

theorem inv_step {p : Page} (h : Inv p) (e : Ev) : Inv (step p e) := by
  cases e with
  | click f =>
    have hc : (∀ s, (p.click f).1.source = some s → s ∈ (p.click f).1.told) ∧
        (∀ n, (p.click f).1.node = some n → n ∈ (p.click f).1.told) ∧ (p.click f).1.running.isSome = true := by
      unfold Page.click
      split
      · next n hn =>
        have hne : p.clicks ≠ [] := fun x => by have := h.none_yet x; simp [this] at hn
        exact ⟨(tail_inv h.src h.node).1, (tail_inv h.src h.node).2, h.ctx hne⟩
      · dsimp only
        split <;> exact ⟨h.src, h.node, rfl⟩
    exact ⟨hc.1, hc.2.1, fun _ => hc.2.2, fun x => by simp [step] at x⟩
  | go i =>
    dsimp only [step]
    split
    · next pc hpc =>
      have hne : p.clicks ≠ [] := by intro x; simp [x] at hpc
      refine ⟨(resume_inv h.src h.node pc).1, (resume_inv h.src h.node pc).2,
        fun _ => resume_running p pc (h.ctx hne), fun x => ?_⟩
      simp [resume_clicks] at x
      exact absurd x hne
    · exact h

/-- Whatever the order in which clicks and promises come, the source is connected at most once, to a node that was told
the sample rate, so that it can be heard. -/
theorem C126_connected (l r : List Ev) (s : Nat) (h : (run .new l).source = some s) :
    s ∈ (run .new l).told ∧ (run .new (l ++ r)).source = some s := by
  have hi : ∀ (l : List Ev) (p : Page), Inv p → Inv (run p l) := by
    intro l
    induction l with
    | nil => intro p h; exact h
    | cons e l ih => intro p h; exact ih _ (inv_step h e)
  have keep : ∀ (r : List Ev) (p : Page), p.source = some s → (run p r).source = some s := by
    intro r
    induction r with
    | nil => intro p h; exact h
    | cons e r ih =>
      intro p h
      refine ih (step p e) ?_
      cases e with
      | click f =>
        simp only [step, Page.click]
        cases p.node with
        | some n => simp [Page.tail, h]
        | none => simp only; cases p.proc <;> exact h
      | go i =>
        dsimp only [step]
        split
        · next pc _ => cases pc <;> simp [Page.resume, Page.tail, h]
        · exact h
  have h0 : Inv .new := ⟨by simp [Page.new], by simp [Page.new], by simp [Page.new], by simp [Page.new]⟩
  refine ⟨(hi l .new h0).src s h, ?_⟩
  have : run .new (l ++ r) = run (run .new l) r := by simp [run, List.foldl_append]
  rw [this]
  exact keep r _ h

/-- One click after the other, each waited for: `f` is what a new context is. -/
def slowly (f : Bool) : Nat → List Ev
  | 0 => []
  | n + 1 => slowly f n ++ if n = 0 then [.click f, .go 0, .go 0, .go 0, .go 0] else [.click f, .go n]

/-- Clicked one after the other, the button switches the sound on and off, with one node and one source. -/
theorem C126_toggle (f : Bool) (n : Nat) (hn : 0 < n) :
    (run .new (slowly f n)) =
      ⟨some (n % 2 = 1), 1, some 0, some 0, some 0, [0], List.replicate n .over⟩ := by
  induction n with
  | zero => omega
  | succ n ih =>
    by_cases h0 : n = 0
    · subst h0
      cases f <;> decide
    · have := ih (by omega)
      have e : run .new (slowly f (n + 1)) = run (run .new (slowly f n)) [.click f, .go n] := by
        simp [slowly, h0, run, List.foldl_append]
      rw [e, this]
      have hmod : n % 2 = 0 ∨ n % 2 = 1 := by omega
      rcases hmod with hm | hm
      · have hm' : (n + 1) % 2 = 1 := by omega
        simp [run, step, Page.click, Page.tail, Page.resume, hm, hm', List.replicate_succ']
      · have hm' : (n + 1) % 2 = 0 := by omega
        simp [run, step, Page.click, Page.tail, Page.resume, hm, hm', List.replicate_succ']

/-- **False for quick clicks.** If the button is clicked again while the module is loaded, two nodes are made, and the
sound can be on after two clicks: the second click suspends the context once more before it looks. -/
theorem C126_toggle_fails (f : Bool) :
    let p := run .new [.click f, .click f, .go 0, .go 0, .go 0, .go 0, .go 1, .go 1, .go 1, .go 1]
    p.clicks = [.over, .over] ∧ p.running = some true ∧ p.made = 2 ∧ p.source = some 0 ∧ p.node = some 1 := by
  cases f <;> decide

theorem C126_cases :
    ((Proc.new.message 4).heard (fun t => t) [2, 1] 0 1 [1, 0, 3]).1 = [0, 1 / 4, 1 / 2, 3 / 4] ∧
    (Proc.new.heard (fun t => t) [2, 1] 0 1 [1, 0, 3]).1 = [] ∧
    (run .new (slowly true 1)).running = some true ∧ (run .new (slowly true 2)).running = some false := by
  decide +kernel

end Verif.Audio
