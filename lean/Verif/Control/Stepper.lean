import Verif.Base

/-!
C78: stepping an application by hand, `ToggleStepper` and `ToggleStepperTask` (control/step.py).

A stepper polls the structs it was given once per iteration and may own the time everybody sees. The structs
themselves are only seen through who polled them and at what time; `bad` are those whose `poll` raises.
Python's recursion limit is a number of nested polls. The rate of counts and the refreshing of plots are left
out. `to_poll` is a set: some order of its members.
-/
namespace Verif.Stepper
open Verif

inductive Ent where
  | plain (n : Nat)
  | stepper (j : Nat)
  deriving DecidableEq, Repr

/-- One stepper: its channels, the `SimulatedTime` and `to_poll`. -/
structure Stp where
  step : Bool
  sim : Bool
  count : Nat
  counts : Nat
  timeS : Nat
  timer : Nat
  dt : Nat
  items : List Ent
  deriving DecidableEq, Repr

structure World where
  stp : Nat → Stp
  /-- whose simulated time is the default time source (`set_simulated_source`) -/
  source : Option Nat
  real : Nat
  /-- who polled which struct at what time -/
  log : List (Nat × Nat × Nat)

/-- `default_time_ns()`. -/
def World.now (w : World) : Nat :=
  match w.source with
  | some j => (w.stp j).timer
  | none => w.real

def World.upd (w : World) (j : Nat) (f : Stp → Stp) : World :=
  { w with stp := fun i => if i = j then f (w.stp i) else w.stp i }

/-- The loop of `poll`, 165–166: it ends where a member raises. -/
def pollAll (p : World → Ent → World × Option PyErr) : World → List Ent → World × Option PyErr
  | w, [] => (w, none)
  | w, e :: es =>
    match p w e with
    | (w', some x) => (w', some x)
    | (w', none) => pollAll p w' es

/-- `poll`, 160–174; the second argument is who polls. -/
def poll (bad : Nat → Bool) : Nat → Nat → World → Ent → World × Option PyErr
  | 0, _, w, _ => (w, some .runtime)
  | _ + 1, b, w, .plain n =>
    ({ w with log := w.log ++ [(b, n, w.now)] }, if bad n then some .value else none)
  | f + 1, _, w, .stepper j =>
    match pollAll (poll bad f j) (w.upd j fun s => { s with timeS := w.now })
        ((w.upd j fun s => { s with timeS := w.now }).stp j).items with
    | (w', some x) => (w', some x)
    | (w', none) =>
      (w'.upd j fun s => { s with counts := (s.counts + 1) % 2 ^ 32, timer := s.timer + s.dt }, none)

/-- `do_step`, 100–104: `range(self.count.raw.value)` is evaluated once. -/
def rounds (bad : Nat → Bool) (f j : Nat) : Nat → World → World × Option PyErr
  | 0, w => (w, none)
  | n + 1, w =>
    match poll bad f j w (.stepper j) with
    | (w', some x) => (w', some x)
    | (w', none) => rounds bad f j n w'

inductive Op where
  /-- the `step` channel is set, by a command or by anybody -/
  | setStep (j : Nat) (v : Bool)
  /-- `Bool.toggle`, as `ToggleStepperTask.dispatch` does -/
  | toggle (j : Nat)
  | setCount (j : Nat) (n : Nat)
  | setSim (j : Nat) (v : Bool)
  /-- real time passes -/
  | tick (n : Nat)
  deriving DecidableEq, Repr

/-- Setting `step`: the callback runs when the value changes. -/
def setStep (bad : Nat → Bool) (f : Nat) (w : World) (j : Nat) (v : Bool) : World × Option PyErr :=
  if (w.stp j).step = v then (w, none)
  else rounds bad f j (w.stp j).count (w.upd j fun s => { s with step := v })

/-- Setting `simulate_time`, 139–152. -/
def setSim (w : World) (j : Nat) (v : Bool) : World :=
  if (w.stp j).sim = v then w
  else
    let w' := { w.upd j (fun s => { s with sim := v }) with source := if v then some j else none }
    w'.upd j fun s => { s with timeS := w'.now }

def step (bad : Nat → Bool) (f : Nat) (w : World) : Op → World × Option PyErr
  | .setStep j v => setStep bad f w j v
  | .toggle j => setStep bad f w j (!(w.stp j).step)
  | .setCount j n => (w.upd j fun s => { s with count := n % 2 ^ 32 }, none)
  | .setSim j v => (setSim w j v, none)
  | .tick n => ({ w with real := w.real + n }, none)

def run (bad : Nat → Bool) (f : Nat) (w : World) (ops : List Op) : World :=
  ops.foldl (fun w o => (step bad f w o).1) w

theorem run_setStep (bad : Nat → Bool) (f : Nat) (w : World) (i : Nat) (v : Bool) (ops : List Op) :
    run bad f w (.setStep i v :: ops) = run bad f (setStep bad f w i v).1 ops := rfl

theorem run_toggle (bad : Nat → Bool) (f : Nat) (w : World) (i : Nat) (ops : List Op) :
    run bad f w (.toggle i :: ops) = run bad f (setStep bad f w i (!(w.stp i).step)).1 ops := rfl

/-- The number of iterations a list of operations asks stepper `j` for, from the value of `step` and of
`count`. -/
def asked (j : Nat) : Bool → Nat → List Op → Nat
  | _, _, [] => 0
  | v, c, .setStep i u :: ops => if i = j ∧ v ≠ u then c + asked j u c ops else asked j v c ops
  | v, c, .toggle i :: ops => if i = j then c + asked j (!v) c ops else asked j v c ops
  | v, c, .setCount i n :: ops => if i = j then asked j v (n % 2 ^ 32) ops else asked j v c ops
  | v, c, _ :: ops => asked j v c ops

/-! ### Iterations without nesting and without exceptions -/

/-- Steppers that poll structs which are not steppers, and which do not raise. -/
structure Flat (bad : Nat → Bool) (ns : Nat → List Nat) (w : World) : Prop where
  items : ∀ j, (w.stp j).items = (ns j).map Ent.plain
  good : ∀ j, ∀ n ∈ ns j, bad n = false

/-- One iteration of stepper `j`, all at once. -/
def World.iter (w : World) (j : Nat) (ns : List Nat) : World :=
  { stp := fun i => if i = j then
      { w.stp i with timeS := w.now, counts := ((w.stp i).counts + 1) % 2 ^ 32,
                     timer := (w.stp i).timer + (w.stp i).dt } else w.stp i,
    source := w.source, real := w.real, log := w.log ++ ns.map (fun n => (j, n, w.now)) }

theorem pollAll_plain (bad : Nat → Bool) (f j : Nat) (ns : List Nat) (w : World)
    (hg : ∀ n ∈ ns, bad n = false) :
    pollAll (poll bad (f + 1) j) w (ns.map Ent.plain)
      = ({ w with log := w.log ++ ns.map (fun n => (j, n, w.now)) }, none) := by
  induction ns generalizing w with
  | nil => simp [pollAll]
  | cons n ns ih =>
    have h1 : poll bad (f + 1) j w (.plain n) = ({ w with log := w.log ++ [(j, n, w.now)] }, none) := by
      simp only [poll, hg n (List.mem_cons_self ..)]
      rfl
    simp only [List.map_cons, pollAll, h1]
    rw [ih _ (fun m hm => hg m (List.mem_cons_of_mem _ hm))]
    simp [World.now]

theorem now_upd (w : World) (j : Nat) (g : Stp → Stp) (h : ∀ s, (g s).timer = s.timer) :
    (w.upd j g).now = w.now := by
  unfold World.now World.upd
  cases w.source with
  | none => rfl
  | some i =>
    simp only
    split
    · exact h _
    · rfl

theorem poll_flat {bad : Nat → Bool} {ns : Nat → List Nat} {w : World} (h : Flat bad ns w) (f b j : Nat) :
    poll bad (f + 2) b w (.stepper j) = (w.iter j (ns j), none) := by
  have hi : ((w.upd j fun s => { s with timeS := w.now }).stp j).items = (ns j).map Ent.plain := by
    simp only [World.upd, if_true]
    exact h.items j
  have hn := now_upd w j (fun s => { s with timeS := w.now }) (fun _ => rfl)
  simp only [poll, hi, pollAll_plain bad f j (ns j) _ (h.good j), hn]
  refine Prod.ext ?_ rfl
  simp only [World.upd, World.iter]
  congr 1
  funext i
  split <;> rfl

theorem Flat.iter {bad ns w} (h : Flat bad ns w) (j : Nat) : Flat bad ns (w.iter j (ns j)) := by
  refine ⟨?_, h.good⟩
  intro i
  simp only [World.iter]
  split <;> exact h.items i

def World.iters (w : World) (j : Nat) (ns : List Nat) : Nat → World
  | 0 => w
  | n + 1 => (w.iter j ns).iters j ns n

theorem Flat.iters {bad ns w} (h : Flat bad ns w) (j n : Nat) : Flat bad ns (w.iters j (ns j) n) := by
  induction n generalizing w with
  | zero => exact h
  | succ n ih => exact ih (h.iter j)

theorem rounds_flat {bad : Nat → Bool} {ns : Nat → List Nat} {w : World} (h : Flat bad ns w) (f j n : Nat) :
    rounds bad (f + 2) j n w = (w.iters j (ns j) n, none) := by
  induction n generalizing w with
  | zero => rfl
  | succ n ih => simp only [rounds, poll_flat h, ih (h.iter j), World.iters]

theorem Flat.upd {bad ns w} (h : Flat bad ns w) (j : Nat) (g : Stp → Stp) (hg : ∀ s, (g s).items = s.items) :
    Flat bad ns (w.upd j g) := by
  refine ⟨?_, h.good⟩
  intro i
  simp only [World.upd]
  split
  · rw [hg]; exact h.items i
  · exact h.items i

/-- What stepper `j` polled. -/
def polledBy (j : Nat) (log : List (Nat × Nat × Nat)) : List (Nat × Nat) :=
  (log.filter (fun x => x.1 == j)).map Prod.snd

theorem polledBy_append (j : Nat) (a b : List (Nat × Nat × Nat)) :
    polledBy j (a ++ b) = polledBy j a ++ polledBy j b := by simp [polledBy]

theorem polledBy_own (j t : Nat) (ns : List Nat) :
    polledBy j (ns.map (fun n => (j, n, t))) = ns.map (fun n => (n, t)) := by
  induction ns with
  | nil => rfl
  | cons n ns ih => simp [polledBy] at ih ⊢; exact ih

theorem polledBy_other (i j t : Nat) (h : j ≠ i) (ns : List Nat) :
    polledBy i (ns.map (fun n => (j, n, t))) = [] := by
  simp [polledBy, List.filter_map, Function.comp_def, h]

/-- How stepper `j` and what it polled differ after `n` iterations of stepper `i`. -/
structure After (j : Nat) (ns : List Nat) (w w' : World) (n : Nat) : Prop where
  step : (w'.stp j).step = (w.stp j).step
  count : (w'.stp j).count = (w.stp j).count
  sim : (w'.stp j).sim = (w.stp j).sim
  dt : (w'.stp j).dt = (w.stp j).dt
  counts : (w'.stp j).counts % 2 ^ 32 = ((w.stp j).counts + n) % 2 ^ 32
  timer : (w'.stp j).timer = (w.stp j).timer + n * (w.stp j).dt
  names : (polledBy j w'.log).map Prod.fst
    = (polledBy j w.log).map Prod.fst ++ (List.replicate n ns).flatten
  times : w.source = some j → polledBy j w'.log
    = polledBy j w.log ++ ((List.range n).map fun r =>
        ns.map fun m => (m, (w.stp j).timer + r * (w.stp j).dt)).flatten
  source : w'.source = w.source

theorem After.refl (j : Nat) (ns : List Nat) (w : World) : After j ns w w 0 :=
  ⟨rfl, rfl, rfl, rfl, rfl, by simp, by simp, by simp, rfl⟩

theorem After.trans {j : Nat} {ns : List Nat} {a b c : World} {n m : Nat} (h : After j ns a b n)
    (g : After j ns b c m) : After j ns a c (n + m) := by
  refine ⟨g.step.trans h.step, g.count.trans h.count, g.sim.trans h.sim, g.dt.trans h.dt, ?_, ?_, ?_, ?_,
    g.source.trans h.source⟩
  · have h1 := g.counts; have h2 := h.counts; omega
  · rw [g.timer, h.timer, h.dt, Nat.add_mul]; omega
  · rw [g.names, h.names, ← List.replicate_append_replicate, List.flatten_append, List.append_assoc]
  · intro hs
    rw [g.times (h.source.trans hs), h.times hs, List.append_assoc, List.range_add, List.map_append,
      List.flatten_append, List.map_map]
    congr 4
    funext r
    simp only [Function.comp]
    congr 1
    funext m
    rw [h.timer, h.dt, Nat.add_mul]
    congr 1
    omega

theorem After.iter_own (w : World) (j : Nat) (ns : List Nat) : After j ns w (w.iter j ns) 1 := by
  refine ⟨?_, ?_, ?_, ?_, ?_, ?_, ?_, ?_, rfl⟩
  · simp [World.iter]
  · simp [World.iter]
  · simp [World.iter]
  · simp [World.iter]
  · simp [World.iter]
  · simp [World.iter]
  · simp only [World.iter, polledBy_append, polledBy_own, List.map_append, List.map_map]
    simp [Function.comp_def]
  · intro hs
    simp only [World.iter, polledBy_append, polledBy_own]
    simp [World.now, hs]

theorem After.iter_other (w : World) (i j : Nat) (h : j ≠ i) (ns ms : List Nat) :
    After i ms w (w.iter j ns) 0 := by
  have hij : ¬ i = j := fun e => h e.symm
  refine ⟨?_, ?_, ?_, ?_, ?_, ?_, ?_, ?_, rfl⟩
  · simp [World.iter, hij]
  · simp [World.iter, hij]
  · simp [World.iter, hij]
  · simp [World.iter, hij]
  · simp [World.iter, hij]
  · simp [World.iter, hij]
  · simp [World.iter, polledBy_append, polledBy_other i j _ h]
  · simp [World.iter, polledBy_append, polledBy_other i j _ h]

theorem After.iters_own (w : World) (j : Nat) (ns : List Nat) (n : Nat) : After j ns w (w.iters j ns n) n := by
  induction n generalizing w with
  | zero => exact After.refl j ns w
  | succ n ih =>
    have := (After.iter_own w j ns).trans (ih (w.iter j ns))
    rw [Nat.add_comm] at this
    exact this

theorem After.iters_other (w : World) (i j : Nat) (h : j ≠ i) (ns ms : List Nat) (n : Nat) :
    After i ms w (w.iters j ns n) 0 := by
  induction n generalizing w with
  | zero => exact After.refl i ms w
  | succ n ih => exact (After.iter_other w i j h ns ms).trans (ih (w.iter j ns))

/-- Changing channels of a stepper polls nothing. -/
theorem After.upd {j : Nat} {ns : List Nat} {w w' : World} {i n : Nat} {g : Stp → Stp}
    (hg : ∀ s, (g s).step = s.step ∧ (g s).count = s.count ∧ (g s).sim = s.sim ∧ (g s).dt = s.dt ∧
      (g s).counts = s.counts ∧ (g s).timer = s.timer) (h : After j ns (w.upd i g) w' n) : After j ns w w' n := by
  have hs : ∀ k, ((w.upd i g).stp k).step = (w.stp k).step ∧ ((w.upd i g).stp k).count = (w.stp k).count ∧
      ((w.upd i g).stp k).sim = (w.stp k).sim ∧ ((w.upd i g).stp k).dt = (w.stp k).dt ∧
      ((w.upd i g).stp k).counts = (w.stp k).counts ∧ ((w.upd i g).stp k).timer = (w.stp k).timer := by
    intro k
    simp only [World.upd]
    split
    · exact hg _
    · exact ⟨rfl, rfl, rfl, rfl, rfl, rfl⟩
  obtain ⟨h1, h2, h3, h4, h5, h6⟩ := hs j
  exact ⟨h.step.trans h1, h.count.trans h2, h.sim.trans h3, h.dt.trans h4, by rw [h.counts, h5],
    by rw [h.timer, h6, h4], h.names, (fun e => by have := h.times e; rw [h6, h4] at this; exact this), h.source⟩

theorem setStep_flat {bad : Nat → Bool} {ns : Nat → List Nat} {w : World} (h : Flat bad ns w) (f j : Nat)
    (v : Bool) :
    Flat bad ns (setStep bad (f + 2) w j v).1 ∧ (setStep bad (f + 2) w j v).2 = none ∧
    (setStep bad (f + 2) w j v).1.source = w.source ∧
    ∀ i, ((setStep bad (f + 2) w j v).1.stp i).step = (if i = j then v else (w.stp i).step) ∧
      ((setStep bad (f + 2) w j v).1.stp i).count = (w.stp i).count ∧
      ((setStep bad (f + 2) w j v).1.stp i).sim = (w.stp i).sim ∧
      ((setStep bad (f + 2) w j v).1.stp i).dt = (w.stp i).dt ∧
      ∃ n, n = (if i = j ∧ (w.stp i).step ≠ v then (w.stp i).count else 0) ∧
        ((setStep bad (f + 2) w j v).1.stp i).counts % 2 ^ 32 = ((w.stp i).counts + n) % 2 ^ 32 ∧
        ((setStep bad (f + 2) w j v).1.stp i).timer = (w.stp i).timer + n * (w.stp i).dt ∧
        (polledBy i (setStep bad (f + 2) w j v).1.log).map Prod.fst
          = (polledBy i w.log).map Prod.fst ++ (List.replicate n (ns i)).flatten ∧
        (w.source = some i → polledBy i (setStep bad (f + 2) w j v).1.log
          = polledBy i w.log ++ ((List.range n).map fun r =>
              (ns i).map fun m => (m, (w.stp i).timer + r * (w.stp i).dt)).flatten) := by
  by_cases hv : (w.stp j).step = v
  · have hs : setStep bad (f + 2) w j v = (w, none) := by simp only [setStep, if_pos hv]
    rw [hs]
    refine ⟨h, rfl, rfl, ?_⟩
    intro i
    refine ⟨?_, rfl, rfl, rfl, 0, ?_, by simp, by simp, by simp, by simp⟩
    · split
      · rename_i e; rw [e, hv]
      · rfl
    · rw [if_neg]
      rintro ⟨e, hne⟩
      exact hne (e ▸ hv)
  · have hf := h.upd j (fun s => { s with step := v }) (fun _ => rfl)
    have hs : setStep bad (f + 2) w j v
        = ((w.upd j fun s => { s with step := v }).iters j (ns j) (w.stp j).count, none) := by
      simp only [setStep, if_neg hv, rounds_flat hf]
    rw [hs]
    have hu : ∀ i, ((w.upd j fun s => { s with step := v }).stp i).count = (w.stp i).count ∧
        ((w.upd j fun s => { s with step := v }).stp i).sim = (w.stp i).sim ∧
        ((w.upd j fun s => { s with step := v }).stp i).dt = (w.stp i).dt ∧
        ((w.upd j fun s => { s with step := v }).stp i).counts = (w.stp i).counts ∧
        ((w.upd j fun s => { s with step := v }).stp i).timer = (w.stp i).timer ∧
        ((w.upd j fun s => { s with step := v }).stp i).step = (if i = j then v else (w.stp i).step) := by
      intro i
      simp only [World.upd]
      split <;> exact ⟨rfl, rfl, rfl, rfl, rfl, rfl⟩
    refine ⟨hf.iters j _, rfl, (After.iters_own _ j (ns j) _).source, ?_⟩
    intro i
    obtain ⟨u1, u2, u3, u4, u5, u6⟩ := hu i
    by_cases hij : i = j
    · subst hij
      have ha := After.iters_own (w.upd i fun s => { s with step := v }) i (ns i) (w.stp i).count
      refine ⟨ha.step.trans u6, ha.count.trans u1, ha.sim.trans u2, ha.dt.trans u3, (w.stp i).count,
        ?_, ?_, ?_, ha.names, ?_⟩
      · rw [if_pos ⟨rfl, hv⟩]
      · rw [ha.counts, u4]
      · rw [ha.timer, u5, u3]
      · intro e
        have := ha.times e
        rw [u5, u3] at this
        exact this
    · have ha := After.iters_other (w.upd j fun s => { s with step := v }) i j (fun e => hij e.symm) (ns j)
        (ns i) (w.stp j).count
      refine ⟨ha.step.trans u6, ha.count.trans u1, ha.sim.trans u2, ha.dt.trans u3, 0, ?_, ?_, ?_, ha.names, ?_⟩
      · rw [if_neg]; intro e; exact hij e.1
      · rw [ha.counts, u4]
      · rw [ha.timer, u5, u3]
      · intro e
        have := ha.times e
        rw [u5, u3] at this
        exact this

/-- The state of stepper `j` after a history, against the iterations the history asks for. -/
structure Sum (bad : Nat → Bool) (ns : Nat → List Nat) (j : Nat) (w w' : World) (n : Nat) : Prop where
  flat : Flat bad ns w'
  dt : (w'.stp j).dt = (w.stp j).dt
  counts : (w'.stp j).counts % 2 ^ 32 = ((w.stp j).counts + n) % 2 ^ 32
  timer : (w'.stp j).timer = (w.stp j).timer + n * (w.stp j).dt
  names : (polledBy j w'.log).map Prod.fst
    = (polledBy j w.log).map Prod.fst ++ (List.replicate n (ns j)).flatten

theorem Sum.trans {bad ns j} {a b c : World} {n m : Nat} (h : Sum bad ns j a b n) (g : Sum bad ns j b c m) :
    Sum bad ns j a c (n + m) := by
  refine ⟨g.flat, g.dt.trans h.dt, ?_, ?_, ?_⟩
  · have h1 := g.counts; have h2 := h.counts; omega
  · rw [g.timer, h.timer, h.dt, Nat.add_mul]; omega
  · rw [g.names, h.names, ← List.replicate_append_replicate, List.flatten_append, List.append_assoc]

theorem Sum.idle {bad ns j} {a b : World} (hf : Flat bad ns b)
    (hs : (b.stp j).dt = (a.stp j).dt ∧ (b.stp j).counts = (a.stp j).counts ∧ (b.stp j).timer = (a.stp j).timer)
    (hl : b.log = a.log) : Sum bad ns j a b 0 :=
  ⟨hf, hs.1, by rw [hs.2.1]; rfl, by rw [hs.2.2]; simp, by rw [hl]; simp⟩

theorem setSim_frame {bad ns w} (h : Flat bad ns w) (i : Nat) (v : Bool) (j : Nat) :
    Flat bad ns (setSim w i v) ∧ (setSim w i v).log = w.log ∧
    ((setSim w i v).stp j).dt = (w.stp j).dt ∧ ((setSim w i v).stp j).counts = (w.stp j).counts ∧
    ((setSim w i v).stp j).timer = (w.stp j).timer ∧ ((setSim w i v).stp j).step = (w.stp j).step ∧
    ((setSim w i v).stp j).count = (w.stp j).count := by
  unfold setSim
  split
  · exact ⟨h, rfl, rfl, rfl, rfl, rfl, rfl⟩
  · refine ⟨?_, rfl, ?_⟩
    · refine ⟨?_, h.good⟩
      intro k
      simp only [World.upd]
      split <;> exact h.items k
    · simp only [World.upd]
      split <;> exact ⟨rfl, rfl, rfl, rfl, rfl⟩

theorem run_sum {bad : Nat → Bool} {ns : Nat → List Nat} (f j : Nat) (ops : List Op) (w : World)
    (h : Flat bad ns w) :
    Sum bad ns j w (run bad (f + 2) w ops) (asked j (w.stp j).step (w.stp j).count ops) := by
  induction ops generalizing w with
  | nil => exact Sum.idle h ⟨rfl, rfl, rfl⟩ rfl
  | cons o ops ih =>
    have key : ∀ (i : Nat) (v : Bool),
        Sum bad ns j w (run bad (f + 2) (setStep bad (f + 2) w i v).1 ops)
          ((if j = i ∧ (w.stp j).step ≠ v then (w.stp j).count else 0)
            + asked j (if j = i then v else (w.stp j).step) (w.stp j).count ops) := by
      intro i v
      obtain ⟨h1, _, _, h3⟩ := setStep_flat h f i v
      obtain ⟨g1, g2, g3, g4, n, gn, g5, g6, g7, g8⟩ := h3 j
      have := ih _ h1
      rw [g1, g2] at this
      rw [← gn]
      exact Sum.trans ⟨h1, g4, g5, g6, g7⟩ this
    cases o with
    | setStep i v =>
      have := key i v
      rw [run_setStep]
      simp only [asked]
      by_cases hij : j = i
      · subst hij
        by_cases hv : (w.stp j).step = v
        · subst hv
          simpa using this
        · simpa [hv] using this
      · have hji : ¬ i = j := fun e => hij e.symm
        simpa [hij, hji] using this
    | toggle i =>
      have := key i (!(w.stp i).step)
      rw [run_toggle]
      simp only [asked]
      by_cases hij : j = i
      · subst hij
        simpa using this
      · have hji : ¬ i = j := fun e => hij e.symm
        simpa [hij, hji] using this
    | setCount i n =>
      have hf := h.upd i (fun s => { s with count := n % 2 ^ 32 }) (fun _ => rfl)
      have := ih _ hf
      have hs : Sum bad ns j w (w.upd i fun s => { s with count := n % 2 ^ 32 }) 0 := by
        refine Sum.idle hf ?_ rfl
        simp only [World.upd]
        split <;> exact ⟨rfl, rfl, rfl⟩
      have ht := hs.trans this
      rw [Nat.zero_add] at ht
      have he : asked j (w.stp j).step (w.stp j).count (.setCount i n :: ops)
          = asked j ((w.upd i fun s => { s with count := n % 2 ^ 32 }).stp j).step
            ((w.upd i fun s => { s with count := n % 2 ^ 32 }).stp j).count ops := by
        simp only [asked, World.upd]
        by_cases hij : j = i
        · subst hij; simp
        · have hji : ¬ i = j := fun e => hij e.symm
          simp [hij, hji]
      rw [he]
      exact ht
    | setSim i v =>
      obtain ⟨h1, h2, h3, h4, h5, h6, h7⟩ := setSim_frame h i v j
      have := (Sum.idle (a := w) (j := j) h1 ⟨h3, h4, h5⟩ h2).trans (ih _ h1)
      rw [Nat.zero_add, h6, h7] at this
      exact this
    | tick n =>
      have hf : Flat bad ns { w with real := w.real + n } := ⟨h.items, h.good⟩
      have := (Sum.idle (a := w) (j := j) hf ⟨rfl, rfl, rfl⟩ rfl).trans (ih _ hf)
      rw [Nat.zero_add] at this
      exact this

/-- C78: whatever the history, the steppers and the clocks, a stepper polls every one of its structs once for
each iteration asked for by changes of its toggle, in rounds, and counts the iterations modulo the size of
its channel. What the other steppers do makes no difference. (Structs that are steppers themselves or raise:
below.) -/
theorem C78_polls (bad : Nat → Bool) (ns : Nat → List Nat) (w : World) (h : Flat bad ns w) (lim : Nat)
    (hl : 2 ≤ lim) (hlog : w.log = []) (j : Nat) (hc : (w.stp j).counts = 0) (ops : List Op) :
    (((run bad lim w ops).log.filter (fun x => x.1 == j)).map fun x => x.2.1)
      = (List.replicate (asked j (w.stp j).step (w.stp j).count ops) (ns j)).flatten ∧
    ((run bad lim w ops).stp j).counts % 2 ^ 32
      = asked j (w.stp j).step (w.stp j).count ops % 2 ^ 32 := by
  obtain ⟨f, rfl⟩ : ∃ f, lim = f + 2 := ⟨lim - 2, by omega⟩
  have hs := run_sum f j ops w h
  refine ⟨?_, by rw [hs.counts, hc, Nat.zero_add]⟩
  have := hs.names
  rw [hlog] at this
  simpa [polledBy, Function.comp_def] using this

/-- C78: while a stepper owns the time, the structs polled in its iteration number `r` all see the same time,
`r` times the configured step after the first, whatever else happens short of `simulate_time` changing. -/
theorem C78_simulated (bad : Nat → Bool) (ns : Nat → List Nat) (w : World) (h : Flat bad ns w) (lim : Nat)
    (hl : 2 ≤ lim) (j : Nat) (hj : w.source = some j) (ops : List Op) (hn : ∀ i v, Op.setSim i v ∉ ops) :
    polledBy j (run bad lim w ops).log = polledBy j w.log
      ++ ((List.range (asked j (w.stp j).step (w.stp j).count ops)).map fun r =>
          (ns j).map fun m => (m, (w.stp j).timer + r * (w.stp j).dt)).flatten ∧
    (run bad lim w ops).now
      = (w.stp j).timer + asked j (w.stp j).step (w.stp j).count ops * (w.stp j).dt := by
  obtain ⟨f, rfl⟩ : ∃ f, lim = f + 2 := ⟨lim - 2, by omega⟩
  have hsrc : ∀ (ops : List Op) (w : World), Flat bad ns w → w.source = some j → (∀ i v, Op.setSim i v ∉ ops) →
      (run bad (f + 2) w ops).source = some j ∧
      polledBy j (run bad (f + 2) w ops).log = polledBy j w.log
        ++ ((List.range (asked j (w.stp j).step (w.stp j).count ops)).map fun r =>
          (ns j).map fun m => (m, (w.stp j).timer + r * (w.stp j).dt)).flatten := by
    intro ops
    induction ops with
    | nil => intro w h hj _; exact ⟨hj, by simp [run, asked]⟩
    | cons o ops ih =>
      intro w h hj hn
      have hn' : ∀ i v, Op.setSim i v ∉ ops := fun i v hm => hn i v (List.mem_cons_of_mem _ hm)
      have key : ∀ (i : Nat) (v : Bool),
          (run bad (f + 2) (setStep bad (f + 2) w i v).1 ops).source = some j ∧
          polledBy j (run bad (f + 2) (setStep bad (f + 2) w i v).1 ops).log = polledBy j w.log
            ++ ((List.range ((if j = i ∧ (w.stp j).step ≠ v then (w.stp j).count else 0)
              + asked j (if j = i then v else (w.stp j).step) (w.stp j).count ops)).map fun r =>
              (ns j).map fun m => (m, (w.stp j).timer + r * (w.stp j).dt)).flatten := by
        intro i v
        obtain ⟨h1, _, h2, h3⟩ := setStep_flat h f i v
        obtain ⟨g1, g2, g3, g4, n, gn, g5, g6, g7, g8⟩ := h3 j
        obtain ⟨i1, i2⟩ := ih _ h1 (h2.trans hj) hn'
        refine ⟨i1, ?_⟩
        rw [i2, g8 hj, g1, g2, g6, g4, ← gn, List.append_assoc, List.range_add, List.map_append,
          List.flatten_append, List.map_map]
        congr 4
        funext r
        simp only [Function.comp]
        congr 1
        funext m
        rw [Nat.add_mul]
        congr 1
        omega
      cases o with
      | setStep i v =>
        have := key i v
        rw [run_setStep]
        simp only [asked]
        by_cases hij : j = i
        · subst hij
          by_cases hv : (w.stp j).step = v
          · subst hv; simpa using this
          · simpa [hv] using this
        · have hji : ¬ i = j := fun e => hij e.symm
          simpa [hij, hji] using this
      | toggle i =>
        have := key i (!(w.stp i).step)
        rw [run_toggle]
        simp only [asked]
        by_cases hij : j = i
        · subst hij; simpa using this
        · have hji : ¬ i = j := fun e => hij e.symm
          simpa [hij, hji] using this
      | setCount i n =>
        have hf := h.upd i (fun s => { s with count := n % 2 ^ 32 }) (fun _ => rfl)
        have := ih _ hf hj hn'
        have h1 : ((w.upd i fun s => { s with count := n % 2 ^ 32 }).stp j).timer = (w.stp j).timer ∧
            ((w.upd i fun s => { s with count := n % 2 ^ 32 }).stp j).dt = (w.stp j).dt := by
          simp only [World.upd]; split <;> exact ⟨rfl, rfl⟩
        have he : asked j (w.stp j).step (w.stp j).count (.setCount i n :: ops)
            = asked j ((w.upd i fun s => { s with count := n % 2 ^ 32 }).stp j).step
              ((w.upd i fun s => { s with count := n % 2 ^ 32 }).stp j).count ops := by
          simp only [asked, World.upd]
          by_cases hij : j = i
          · subst hij; simp
          · have hji : ¬ i = j := fun e => hij e.symm
            simp [hij, hji]
        rw [h1.1, h1.2] at this
        rw [he]
        exact this
      | setSim i v => exact absurd (List.mem_cons_self ..) (hn i v)
      | tick n =>
        have hf : Flat bad ns { w with real := w.real + n } := ⟨h.items, h.good⟩
        exact ih _ hf hj hn'
  obtain ⟨h1, h2⟩ := hsrc ops w h hj hn
  refine ⟨h2, ?_⟩
  unfold World.now
  rw [h1]
  exact (run_sum f j ops w h).timer

/-- C78: with one stepper, the time everybody sees is its own exactly while its channel says so. -/
theorem C78_source_partial (bad : Nat → Bool) (ns : Nat → List Nat) (w : World) (h : Flat bad ns w) (lim : Nat)
    (hl : 2 ≤ lim) (j : Nat) (h0 : w.source = if (w.stp j).sim then some j else none) (ops : List Op)
    (hn : ∀ i v, Op.setSim i v ∈ ops → i = j) :
    (run bad lim w ops).source = if ((run bad lim w ops).stp j).sim then some j else none := by
  obtain ⟨f, rfl⟩ : ∃ f, lim = f + 2 := ⟨lim - 2, by omega⟩
  induction ops generalizing w with
  | nil => exact h0
  | cons o ops ih =>
    have hn' : ∀ i v, Op.setSim i v ∈ ops → i = j := fun i v hm => hn i v (List.mem_cons_of_mem _ hm)
    have key : ∀ i v, (run bad (f + 2) (setStep bad (f + 2) w i v).1 ops).source
        = if ((run bad (f + 2) (setStep bad (f + 2) w i v).1 ops).stp j).sim then some j else none := by
      intro i v
      obtain ⟨h1, _, h2, h3⟩ := setStep_flat h f i v
      exact ih _ h1 (by rw [h2, (h3 j).2.2.1]; exact h0) hn'
    cases o with
    | setStep i v => exact key i v
    | toggle i => exact key i _
    | setCount i n =>
      refine ih _ (h.upd i (fun s => { s with count := n % 2 ^ 32 }) (fun _ => rfl)) ?_ hn'
      show w.source = if ((w.upd i (fun s => { s with count := n % 2 ^ 32 })).stp j).sim then some j else none
      rw [h0]
      by_cases hji : j = i <;> simp [World.upd, hji]
    | setSim i v =>
      have hij := hn i v (List.mem_cons_self ..)
      subst hij
      refine ih _ (setSim_frame h i v i).1 ?_ hn'
      show (setSim w i v).source = if ((setSim w i v).stp i).sim then some i else none
      unfold setSim
      split
      · exact h0
      · simp [World.upd]
    | tick n => exact ih _ ⟨h.items, h.good⟩ h0 hn'

/-- C78: a change of the time source is at once visible in the stepper's time channel. -/
theorem C78_refreshed (w : World) (j : Nat) (v : Bool) (hv : (w.stp j).sim ≠ v) :
    ((setSim w j v).stp j).timeS = (setSim w j v).now ∧
    (setSim w j v).now = if v then (w.stp j).timer else w.real := by
  cases v <;> simp [setSim, hv, World.upd, World.now]

/-- C78, the channel telling who owns the time is false of the code with two steppers: turning the second one
on and off again leaves the real clock in charge while the first one's channel still says simulated. -/
theorem C78_source_fails (bad : Nat → Bool) (lim : Nat) (w : World) (i j : Nat) (hij : i ≠ j)
    (hi : (w.stp i).sim = true) (hj : (w.stp j).sim = false) :
    let s := run bad lim w [.setSim j true, .setSim j false]
    (s.stp i).sim = true ∧ s.source = none ∧ s.now = w.real := by
  have h1 : (setSim w j true).stp j = { w.stp j with sim := true, timeS := (w.stp j).timer } := by
    simp [setSim, hj, World.upd, World.now]
  have h2 : (setSim w j true).stp i = w.stp i := by
    simp [setSim, hj, World.upd, hij]
  have h3 : (setSim w j true).real = w.real := by
    simp [setSim, hj, World.upd]
  show ((setSim (setSim w j true) j false).stp i).sim = true ∧ (setSim (setSim w j true) j false).source = none ∧
    (setSim (setSim w j true) j false).now = w.real
  have hne : ¬ ((setSim w j true).stp j).sim = false := by rw [h1]; simp
  refine ⟨?_, ?_, ?_⟩
  · rw [setSim, if_neg hne]
    simp only [World.upd, if_neg hij]
    rw [h2]; exact hi
  · rw [setSim, if_neg hne]
    rfl
  · rw [setSim, if_neg hne]
    show (setSim w j true).real = w.real
    exact h3

/-- C78, the channel with the current time is false of the code: after a simulated iteration it is one step
behind the time everybody sees. -/
theorem C78_time_fails (bad : Nat → Bool) (ns : Nat → List Nat) (w : World) (h : Flat bad ns w) (lim : Nat)
    (hl : 2 ≤ lim) (j : Nat) (hj : w.source = some j) (hd : (w.stp j).dt ≠ 0) (hc : (w.stp j).count ≠ 0) :
    let s := (step bad lim w (.toggle j)).1
    (s.stp j).timeS + (w.stp j).dt = s.now ∧ (s.stp j).timeS ≠ s.now := by
  obtain ⟨f, rfl⟩ : ∃ f, lim = f + 2 := ⟨lim - 2, by omega⟩
  have hf := h.upd j (fun s => { s with step := !(w.stp j).step }) (fun _ => rfl)
  have hne : ¬ (w.stp j).step = !(w.stp j).step := by cases (w.stp j).step <;> decide
  have hs : (step bad (f + 2) w (.toggle j)).1
      = (w.upd j fun s => { s with step := !(w.stp j).step }).iters j (ns j) (w.stp j).count := by
    simp only [step, setStep, if_neg hne, rounds_flat hf]
  have last : ∀ (n : Nat) (v : World), v.source = some j → n ≠ 0 →
      ((v.iters j (ns j) n).stp j).timeS + (v.stp j).dt = ((v.iters j (ns j) n).stp j).timer := by
    intro n
    induction n with
    | zero => intro v _ h; exact absurd rfl h
    | succ n ih =>
      intro v hv _
      cases n with
      | zero => simp [World.iters, World.iter, World.now, hv]
      | succ n =>
        have := ih (v.iter j (ns j)) hv (by omega)
        simp only [World.iters] at this ⊢
        rw [← this]
        simp [World.iter]
  have hk := last (w.stp j).count (w.upd j fun s => { s with step := !(w.stp j).step }) hj hc
  have hdt : ((w.upd j fun s => { s with step := !(w.stp j).step }).stp j).dt = (w.stp j).dt := by
    simp [World.upd]
  have hnow : ((step bad (f + 2) w (.toggle j)).1).now = ((step bad (f + 2) w (.toggle j)).1.stp j).timer := by
    have : (step bad (f + 2) w (.toggle j)).1.source = some j := by
      rw [hs, (After.iters_own _ j (ns j) _).source]; exact hj
    unfold World.now
    rw [this]
  intro s
  have h1 : (s.stp j).timeS + (w.stp j).dt = s.now := by
    show ((step bad (f + 2) w (.toggle j)).1.stp j).timeS + _ = (step bad (f + 2) w (.toggle j)).1.now
    rw [hnow, hs, ← hdt]; exact hk
  exact ⟨h1, by omega⟩

/-! ### Nesting and exceptions -/

theorem pollAll_append (p : World → Ent → World × Option PyErr) (w : World) (a b : List Ent) :
    pollAll p w (a ++ b) = match pollAll p w a with
      | (w', some x) => (w', some x)
      | (w', none) => pollAll p w' b := by
  induction a generalizing w with
  | nil => rfl
  | cons e a ih =>
    simp only [List.cons_append, pollAll]
    rcases p w e with ⟨w', x | x⟩
    · exact ih w'
    · rfl

/-- C78, polling once is false of the code for a derived stepper: only the name `ToggleStepper` itself is
kept out of `to_poll`, so an instance of a derived class polls itself, without end: at whatever depth Python
gives up, the step ends with an error and nothing is counted. -/
theorem C78_nested_fails (bad : Nat → Bool) (w : World) (j : Nat) (a b : List Nat)
    (hi : (w.stp j).items = a.map Ent.plain ++ Ent.stepper j :: b.map Ent.plain)
    (hg : ∀ n ∈ a, bad n = false) (hc : (w.stp j).count ≠ 0) (lim : Nat) :
    (step bad lim w (.toggle j)).2 ≠ none ∧
    ((step bad lim w (.toggle j)).1.stp j).counts = (w.stp j).counts ∧
    ((step bad lim w (.toggle j)).1.stp j).step = !(w.stp j).step := by
  have key : ∀ (f b' : Nat) (v : World),
      (v.stp j).items = a.map Ent.plain ++ Ent.stepper j :: b.map Ent.plain →
      (poll bad f b' v (.stepper j)).2 ≠ none ∧
      ((poll bad f b' v (.stepper j)).1.stp j).counts = (v.stp j).counts ∧
      ((poll bad f b' v (.stepper j)).1.stp j).step = (v.stp j).step := by
    intro f
    induction f with
    | zero => intro b' v _; exact ⟨by simp [poll], rfl, rfl⟩
    | succ f ih =>
      intro b' v hv
      have hv1 : ((v.upd j fun s => { s with timeS := v.now }).stp j).items
          = a.map Ent.plain ++ Ent.stepper j :: b.map Ent.plain := by
        simp only [World.upd, if_true]; exact hv
      simp only [poll, hv1, pollAll_append]
      generalize hu : (v.upd j fun s => { s with timeS := v.now }) = u at hv1
      have hu1 : (u.stp j).counts = (v.stp j).counts ∧ (u.stp j).step = (v.stp j).step := by
        rw [← hu]; simp [World.upd]
      cases f with
      | zero =>
        cases a with
        | nil => simp only [List.map_nil, pollAll, poll]; exact ⟨by simp, hu1.1, hu1.2⟩
        | cons n a => simp only [List.map_cons, pollAll, poll]; exact ⟨by simp, hu1.1, hu1.2⟩
      | succ f =>
        rw [pollAll_plain bad f j a u hg]
        simp only [pollAll]
        obtain ⟨h1, h2, h3⟩ := ih j { u with log := u.log ++ a.map (fun n => (j, n, u.now)) } hv1
        rcases hp : poll bad (f + 1) j { u with log := u.log ++ a.map (fun n => (j, n, u.now)) } (.stepper j)
          with ⟨w', x | x⟩
        · rw [hp] at h1; exact absurd rfl h1
        · rw [hp] at h2 h3
          exact ⟨by simp, h2.trans hu1.1, h3.trans hu1.2⟩
  have hne : ¬ (w.stp j).step = !(w.stp j).step := by cases (w.stp j).step <;> decide
  obtain ⟨n, hn⟩ : ∃ n, (w.stp j).count = n + 1 := ⟨(w.stp j).count - 1, by omega⟩
  simp only [step, setStep, if_neg hne, hn, rounds]
  have hk := key lim j (w.upd j fun s => { s with step := !(w.stp j).step })
    (by simp only [World.upd, if_true]; exact hi)
  obtain ⟨k1, k2, k3⟩ := hk
  rcases hp : poll bad lim j (w.upd j fun s => { s with step := !(w.stp j).step }) (.stepper j) with ⟨w', x | x⟩
  · rw [hp] at k1; exact absurd rfl k1
  · rw [hp] at k2 k3
    refine ⟨by simp, ?_, ?_⟩
    · rw [k2]; simp [World.upd]
    · rw [k3]; simp [World.upd]

/-- C78, polling every struct is false of the code when one of them raises: those behind it are not polled,
the remaining iterations do not happen, neither the count nor the simulated time moves, and the toggle has
changed all the same. -/
theorem C78_raise_fails (bad : Nat → Bool) (w : World) (j n : Nat) (a b : List Nat) (lim : Nat) (hl : 2 ≤ lim)
    (hi : (w.stp j).items = a.map Ent.plain ++ Ent.plain n :: b.map Ent.plain)
    (hg : ∀ m ∈ a, bad m = false) (hb : bad n = true) (hc : (w.stp j).count ≠ 0) :
    let r := step bad lim w (.toggle j)
    r.2 = some .value ∧ r.1.log = w.log ++ (a ++ [n]).map (fun m => (j, m, w.now)) ∧
    (r.1.stp j).counts = (w.stp j).counts ∧ (r.1.stp j).timer = (w.stp j).timer ∧
    (r.1.stp j).step = !(w.stp j).step := by
  obtain ⟨f, rfl⟩ : ∃ f, lim = f + 2 := ⟨lim - 2, by omega⟩
  have hne : ¬ (w.stp j).step = !(w.stp j).step := by cases (w.stp j).step <;> decide
  obtain ⟨k, hk⟩ : ∃ k, (w.stp j).count = k + 1 := ⟨(w.stp j).count - 1, by omega⟩
  generalize hu : (w.upd j fun s => { s with step := !(w.stp j).step }) = u
  have hu0 : u.now = w.now := by rw [← hu]; exact now_upd w j _ (fun _ => rfl)
  have hp : poll bad (f + 2) j u (.stepper j)
      = ({ (u.upd j fun s => { s with timeS := u.now }) with
            log := w.log ++ (a ++ [n]).map (fun m => (j, m, w.now)) }, some .value) := by
    have hi' : ((u.upd j fun s => { s with timeS := u.now }).stp j).items
        = a.map Ent.plain ++ Ent.plain n :: b.map Ent.plain := by
      rw [← hu]; simp only [World.upd, if_true]; exact hi
    have hn2 : (u.upd j fun s => { s with timeS := u.now }).now = w.now :=
      (now_upd u j (fun s => { s with timeS := u.now }) (fun _ => rfl)).trans hu0
    have hlog : (u.upd j fun s => { s with timeS := u.now }).log = w.log := by rw [← hu]; rfl
    simp only [poll, hi', pollAll_append, pollAll_plain bad f j a _ hg, pollAll, hb, if_true]
    refine Prod.ext ?_ rfl
    simp only [hlog, hn2]
    congr 1
    have : World.now { (u.upd j fun s => { s with timeS := u.now }) with
        log := w.log ++ a.map (fun n => (j, n, w.now)) } = w.now := hn2
    rw [this]
    simp
  have hs : step bad (f + 2) w (.toggle j)
      = ({ (u.upd j fun s => { s with timeS := u.now }) with
            log := w.log ++ (a ++ [n]).map (fun m => (j, m, w.now)) }, some .value) := by
    simp only [step, setStep, if_neg hne, hk, rounds, hu, hp]
  intro r
  have hr : r = _ := hs
  rw [hr]
  refine ⟨rfl, rfl, ?_, ?_, ?_⟩ <;> (rw [← hu]; simp [World.upd])

/-! ### Cases -/

private def two : World :=
  { stp := fun j => if j = 0 then ⟨false, false, 2, 0, 5, 0, 10, [.plain 7, .plain 8]⟩
      else ⟨false, false, 1, 0, 5, 100, 1, [.plain 8]⟩,
    source := none, real := 5, log := [] }

private def nsTwo : Nat → List Nat := fun j => if j = 0 then [7, 8] else [8]

private def twoOps : List Op :=
  [.setStep 0 true, .setStep 0 true, .setSim 0 true, .toggle 0, .tick 3, .toggle 1, .setCount 0 1, .toggle 0]

/-- C78: cases. Two steppers that share a struct; the first takes over the time after two iterations. -/
theorem C78_cases :
    Flat (fun _ => false) nsTwo two ∧
    asked 0 false 2 twoOps = 5 ∧ asked 1 false 1 twoOps = 1 ∧
    (run (fun _ => false) 2 two twoOps).log
      = [(0, 7, 5), (0, 8, 5), (0, 7, 5), (0, 8, 5), (0, 7, 20), (0, 8, 20), (0, 7, 30), (0, 8, 30),
         (1, 8, 40), (0, 7, 40), (0, 8, 40)] ∧
    ((run (fun _ => false) 2 two twoOps).stp 0).counts = 5 ∧
    (step (fun n => n == 7) 9 two (.toggle 0)).2 = some .value ∧
    (step (fun n => n == 7) 9 two (.toggle 0)).1.log = [(0, 7, 5)] := by
  refine ⟨⟨?_, fun _ _ _ => rfl⟩, by decide +kernel, by decide +kernel, by decide +kernel, by decide +kernel,
    by decide +kernel, by decide +kernel⟩
  intro j
  unfold two nsTwo
  by_cases h : j = 0 <;> simp [h]

end Verif.Stepper
