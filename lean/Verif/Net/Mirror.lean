import Verif.Base
import Mathlib.Data.List.Induction
/-!
C89: a host and the program it runs exchange environments, and the host's copy follows the
program: runtimepy/subprocess/peer.py 49–91 and 239–258, program.py 49–57, 90–121 and 166–206,
interface.py 103–131, 157–164, 187–192 and 224–243.

Three pipes, each a queue of whole messages or events (cutting into chunks is C75), and any
interleaving of what the two processes do. A cell is a channel or the value under a group of
bit-fields; `reg` is what `env.registered` registers, in order: a channel once, the value of a
group once for each of its fields (telemetry.py 45–76). Simplified: replies are told from one
another by their kind, not their identifier (C45, C46); other messages (heartbeat, log, poll,
commands) are left out, they change nothing here; values without rate limits (C34), a change is
`≠`; `load_json` gives the exported values (C68).
-/
namespace Verif.Net.Mirror

open Verif

abbrev Cell := Nat
variable {V : Type}

/-- The program: before the exchange; `_peer_env_event` set; main started and its first message
sent; streaming; over; over by the time-out of that message. -/
inductive Phase where
  | waiting | woken | syncing | streaming | ended | failed
  deriving DecidableEq

/-- The host in `_context`, peer.py 79–84: waiting for the reply to one of its three messages, or
past them. -/
inductive Stage where
  | loop | info | env | done
  deriving DecidableEq

/-- From the host. -/
inductive HMsg (V : Type) where
  | loop
  | info
  | env (snap : Cell → V)
  | sync

/-- From the program; `noEnv` is a reply to an environment without an environment. -/
inductive PMsg (V : Type) where
  | loop
  | info
  | env (snap : Cell → V)
  | noEnv
  | sync

structure Sys (V : Type) where
  val : Cell → V
  phase : Phase
  /-- the program's copy of the host's environment -/
  hostEnv : Option (Cell → V)
  hval : Cell → V
  stage : Stage
  /-- the host's copy of the program's environment -/
  copy : Option (Cell → V)
  /-- how many calls of `share_environment` raised `KeyError` -/
  raised : Nat
  stdin : List (HMsg V)
  stdout : List (PMsg V)
  stderr : List (Cell × V)

def upd (f : Cell → V) (c : Cell) (v : V) : Cell → V := fun x => if x = c then v else f x

inductive Step (V : Type) where
  /-- the program's `io_task` handles a message -/
  | progTake
  /-- `running` goes on after `_peer_env_event.wait()` -/
  | progStart
  | progSet (c : Cell) (v : V)
  | progTimeout
  | progEnd
  /-- the host handles a message of standard output -/
  | hostTake
  /-- the host handles an event of standard error -/
  | hostErr
  | hostSet (c : Cell) (v : V)
  | hostTimeout
  /-- `share_environment` is called once more -/
  | hostShare

/-- A message handled by the program: `loopback_handler`, `_meta_handler`, `env_handler`
(interface.py 157–162, with `_set_peer_env` 103–131), or the reply to its own message: then
`streaming_events` is entered and every registered cell written (event/__init__.py 57–60). -/
def Sys.progTake (reg : List Cell) (s : Sys V) : Sys V :=
  if s.phase = .ended ∨ s.phase = .failed then s
  else match s.stdin with
  | [] => s
  | .loop :: r => { s with stdin := r, stdout := s.stdout ++ [.loop] }
  | .info :: r => { s with stdin := r, stdout := s.stdout ++ [.info] }
  | .env snap :: r =>
    match s.hostEnv with
    | none => { s with stdin := r, hostEnv := some snap, stdout := s.stdout ++ [.env s.val],
                       phase := if s.phase = .waiting then .woken else s.phase }
    | some _ => { s with stdin := r, stdout := s.stdout ++ [.noEnv] }
  | .sync :: r =>
    if s.phase = .syncing then { s with stdin := r, phase := .streaming, stderr := s.stderr ++ reg.map fun c => (c, s.val c) }
    else { s with stdin := r }

/-- A message handled by the host. Handlers also run for replies: `env_handler` stores the
environment before `share_environment` does. -/
def Sys.hostTake (s : Sys V) : Sys V :=
  match s.stdout with
  | [] => s
  | .loop :: r => if s.stage = .loop then { s with stdout := r, stage := .info, stdin := s.stdin ++ [.info] } else { s with stdout := r }
  | .info :: r =>
    if s.stage = .info then { s with stdout := r, stage := .env, stdin := s.stdin ++ [.env s.hval] } else { s with stdout := r }
  | .env snap :: r =>
    { s with stdout := r, copy := s.copy.or (some snap), stage := if s.stage = .env then .done else s.stage }
  | .noEnv :: r => { s with stdout := r, raised := s.raised + 1, stage := if s.stage = .env then .done else s.stage }
  | .sync :: r => { s with stdout := r, stdin := s.stdin ++ [.sync] }

/-- `handle_stderr`, interface.py 224–243: without a copy the event is dropped. -/
def Sys.hostErr (s : Sys V) : Sys V :=
  match s.stderr with
  | [] => s
  | (c, v) :: r => { s with stderr := r, copy := s.copy.map fun f => upd f c v }

/-- A change in the program: each registration of the cell writes an event. -/
def Sys.progSet [DecidableEq V] (reg : List Cell) (s : Sys V) (c : Cell) (v : V) : Sys V :=
  if s.phase = .ended ∨ s.phase = .failed then s
  else { s with val := upd s.val c v,
                stderr := if s.phase = .streaming ∧ s.val c ≠ v then s.stderr ++ (reg.filter (· = c)).map fun x => (x, v) else s.stderr }

def Sys.step [DecidableEq V] (reg : List Cell) (s : Sys V) : Step V → Sys V
  | .progTake => s.progTake reg
  | .progStart => if s.phase = .woken then { s with phase := .syncing, stdout := s.stdout ++ [.sync] } else s
  | .progSet c v => s.progSet reg c v
  | .progTimeout => if s.phase = .syncing then { s with phase := .failed } else s
  | .progEnd => if s.phase = .streaming then { s with phase := .ended } else s
  | .hostTake => s.hostTake
  | .hostErr => s.hostErr
  | .hostSet c v => { s with hval := upd s.hval c v }
  | .hostTimeout => { s with stage := .done }
  | .hostShare => if s.stage = .done then { s with stdin := s.stdin ++ [.env s.hval] } else s

def Sys.run [DecidableEq V] (reg : List Cell) (s : Sys V) (l : List (Step V)) : Sys V := l.foldl (Sys.step reg) s

/-- Both have been started; `pre` is what the program wrote to standard error before the exchange
(`pre_environment_exchange`). -/
def init (val hval : Cell → V) (pre : List (Cell × V)) : Sys V :=
  { val := val, phase := .waiting, hostEnv := none, hval := hval, stage := .loop, copy := none,
    raised := 0, stdin := [.loop], stdout := [], stderr := pre }

/-- Events applied to a copy. -/
def replay (f : Cell → V) (evs : List (Cell × V)) : Cell → V := evs.foldl (fun f ev => upd f ev.1 ev.2) f

theorem replay_append (f : Cell → V) (a b : List (Cell × V)) : replay f (a ++ b) = replay (replay f a) b := by
  simp [replay]

theorem replay_cells (f g : Cell → V) (l : List Cell) (x : Cell) :
    replay f (l.map fun c => (c, g c)) x = if x ∈ l then g x else f x := by
  induction l generalizing f with
  | nil => rfl
  | cons a l ih =>
    show replay (upd f a (g a)) (l.map fun c => (c, g c)) x = _
    rw [ih]
    by_cases h1 : x ∈ l
    · rw [if_pos h1, if_pos (by simp [h1])]
    · rw [if_neg h1]
      by_cases h2 : x = a
      · subst h2; rw [if_pos (by simp)]; simp [upd]
      · rw [if_neg (by simp [h1, h2])]; simp [upd, h2]

theorem replay_same (f : Cell → V) (reg : List Cell) (c : Cell) (v : V) (x : Cell) (hx : x ∈ reg) :
    replay f ((reg.filter (· = c)).map fun x => (x, v)) x = upd f c v x := by
  have := replay_cells f (fun _ => v) (reg.filter (· = c)) x
  rw [this]
  by_cases h : x = c
  · subst h; rw [if_pos (by simp [hx])]; simp [upd]
  · rw [if_neg (by simp [h])]; simp [upd, h]

/-- Whether the program streams, or has. -/
def Phase.live (p : Phase) : Prop := p = .streaming ∨ p = .ended

/-- A copy exists or is on its way. -/
def Coming (s : Sys V) : Prop := s.copy ≠ none ∨ ∃ snap, PMsg.env snap ∈ s.stdout

structure Inv (reg : List Cell) (s : Sys V) : Prop where
  woken : s.phase ≠ .waiting → s.hostEnv ≠ none
  coming : s.hostEnv ≠ none → Coming s
  order : ∀ a b, s.stdout = a ++ PMsg.sync :: b → s.copy ≠ none ∨ ∃ snap, PMsg.env snap ∈ a
  sync : HMsg.sync ∈ s.stdin → s.copy ≠ none
  live : s.phase.live → s.copy ≠ none
  track : s.phase.live → ∀ f, s.copy = some f → ∀ x ∈ reg, replay f s.stderr x = s.val x

theorem order_snoc {reg : List Cell} {s : Sys V} (h : Inv reg s) (m : PMsg V) (hm : m = .sync → Coming s) :
    ∀ a b, s.stdout ++ [m] = a ++ PMsg.sync :: b → s.copy ≠ none ∨ ∃ snap, PMsg.env snap ∈ a := by
  intro a b e
  rcases List.eq_nil_or_concat b with rfl | ⟨b', z, rfl⟩
  · have := List.append_inj' e rfl
    obtain ⟨h1, h2⟩ := this
    cases h2
    rcases hm rfl with h3 | h3
    · exact Or.inl h3
    · exact Or.inr (by rw [← h1]; exact h3)
  · have : s.stdout ++ [m] = (a ++ PMsg.sync :: b') ++ [z] := by simpa using e
    obtain ⟨h1, h2⟩ := List.append_inj' this rfl
    exact h.order a b' h1

theorem inv_init (reg : List Cell) (val hval : Cell → V) (pre : List (Cell × V)) : Inv reg (init val hval pre) := by
  constructor <;> simp [init, Phase.live]

theorem inv_progTake {reg : List Cell} {s : Sys V} (h : Inv reg s) : Inv reg (s.progTake reg) := by
  unfold Sys.progTake
  by_cases hp : s.phase = .ended ∨ s.phase = .failed
  · rw [if_pos hp]; exact h
  rw [if_neg hp]
  have push : ∀ m : PMsg V, m ≠ .sync → ∀ r, (∀ x ∈ r, x ∈ s.stdin) →
      Inv reg ({ s with stdin := r, stdout := s.stdout ++ [m] } : Sys V) := by
    intro m hm r hr
    refine ⟨h.woken, fun hh => ?_, ?_, fun hs => h.sync (hr _ hs), h.live, h.track⟩
    · rcases h.coming hh with h1 | ⟨sn, h1⟩
      · exact Or.inl h1
      · exact Or.inr ⟨sn, by simp [h1]⟩
    · exact order_snoc h m (fun e => absurd e hm)
  cases hi : s.stdin with
  | nil => exact h
  | cons m r =>
    have hr : ∀ x ∈ r, x ∈ s.stdin := by intro x hx; rw [hi]; simp [hx]
    cases m with
    | loop => exact push _ (by simp) r hr
    | info => exact push _ (by simp) r hr
    | env snap =>
      cases hh : s.hostEnv with
      | some e =>
        have := push .noEnv (by simp) r hr
        simpa [hh] using this
      | none =>
        have hw : s.phase = .waiting := by
          by_cases hx : s.phase = .waiting
          · exact hx
          · exact absurd hh (h.woken hx)
        simp only [hw, if_true]
        refine ⟨fun _ => by simp, fun _ => Or.inr ⟨s.val, by simp⟩, order_snoc h _ (by simp), fun hs => h.sync (hr _ hs), ?_, ?_⟩
        · intro hl; rcases hl with hl | hl <;> cases hl
        · intro hl; rcases hl with hl | hl <;> cases hl
    | sync =>
      have hc : s.copy ≠ none := h.sync (by rw [hi]; simp)
      by_cases hy : s.phase = .syncing
      · simp only [hy, if_true]
        refine ⟨fun _ => h.woken (by simp [hy]), h.coming, h.order, fun hs => h.sync (hr _ hs), fun _ => hc, ?_⟩
        intro _ f hf x hx
        show replay f (s.stderr ++ reg.map fun c => (c, s.val c)) x = s.val x
        rw [replay_append, replay_cells, if_pos hx]
      · simp only [hy, if_false]
        exact ⟨h.woken, h.coming, h.order, fun hs => h.sync (hr _ hs), h.live, h.track⟩

theorem inv_hostTake {reg : List Cell} {s : Sys V} (h : Inv reg s) : Inv reg s.hostTake := by
  unfold Sys.hostTake
  cases ho : s.stdout with
  | nil => exact h
  | cons m r =>
    -- dropping a message that is not an environment
    have drop : (∀ sn, m ≠ .env sn) → ∀ st q k, (HMsg.sync ∈ q → HMsg.sync ∈ s.stdin ∨ m = .sync) →
        Inv reg ({ s with stdout := r, stage := st, stdin := q, raised := k } : Sys V) := by
      intro hm st q k hq
      refine ⟨h.woken, fun hh => ?_, fun a b e => ?_, fun hs => ?_, h.live, h.track⟩
      · rcases h.coming hh with h1 | ⟨sn, h1⟩
        · exact Or.inl h1
        · rw [ho] at h1
          rcases List.mem_cons.mp h1 with h1 | h1
          · exact absurd h1.symm (hm sn)
          · exact Or.inr ⟨sn, h1⟩
      · have : s.stdout = (m :: a) ++ PMsg.sync :: b := by rw [ho, List.cons_append]; exact congrArg _ e
        rcases h.order _ _ this with h1 | ⟨sn, h1⟩
        · exact Or.inl h1
        · rcases List.mem_cons.mp h1 with h1 | h1
          · exact absurd h1.symm (hm sn)
          · exact Or.inr ⟨sn, h1⟩
      · rcases hq hs with h1 | rfl
        · exact h.sync h1
        · rcases h.order [] r (by rw [ho]; rfl) with h1 | ⟨sn, h1⟩
          · exact h1
          · cases h1
    cases m with
    | loop =>
      by_cases hs : s.stage = .loop
      · simp only [hs, if_true]; exact drop (by simp) _ _ s.raised (by simp)
      · simp only [hs, if_false]; exact drop (by simp) s.stage s.stdin s.raised (fun hx => Or.inl hx)
    | info =>
      by_cases hs : s.stage = .info
      · simp only [hs, if_true]; exact drop (by simp) _ _ s.raised (by simp)
      · simp only [hs, if_false]; exact drop (by simp) s.stage s.stdin s.raised (fun hx => Or.inl hx)
    | noEnv => exact drop (by simp) _ s.stdin _ (fun hx => Or.inl hx)
    | sync => exact drop (by simp) s.stage _ s.raised (fun _ => Or.inr rfl)
    | env snap =>
      have hne : s.copy.or (some snap) ≠ none := by cases s.copy <;> simp
      refine ⟨h.woken, fun _ => Or.inl hne, fun _ _ _ => Or.inl hne, fun _ => hne, fun _ => hne, fun hl f hf => ?_⟩
      have hc := h.live hl
      cases hcp : s.copy with
      | none => exact absurd hcp hc
      | some g =>
        have : s.copy.or (some snap) = some f := hf
        rw [hcp] at this
        exact h.track hl f (by rw [hcp]; exact this)

theorem inv_hostErr {reg : List Cell} {s : Sys V} (h : Inv reg s) : Inv reg s.hostErr := by
  unfold Sys.hostErr
  cases he : s.stderr with
  | nil => exact h
  | cons ev r =>
    obtain ⟨c, v⟩ := ev
    have hm : ∀ (o : Option (Cell → V)), o ≠ none → (o.map fun f => upd f c v) ≠ none := by
      intro o ho; cases o <;> simp_all
    have hm' : s.copy ≠ none → (s.copy.map fun f => upd f c v) ≠ none := hm _
    refine ⟨h.woken, fun hh => ?_, fun a b e => ?_, fun hs => hm' (h.sync hs), fun hl => hm' (h.live hl), fun hl f hf x hx => ?_⟩
    · exact (h.coming hh).imp hm' id
    · exact (h.order a b e).imp hm' id
    · have hf' : (s.copy.map fun f => upd f c v) = some f := hf
      obtain ⟨g, hg, rfl⟩ := Option.map_eq_some_iff.mp hf'
      have := h.track hl g hg x hx
      rw [he] at this
      exact this

theorem inv_progSet [DecidableEq V] {reg : List Cell} {s : Sys V} (h : Inv reg s) (c : Cell) (v : V) : Inv reg (s.progSet reg c v) := by
  unfold Sys.progSet
  by_cases hp : s.phase = .ended ∨ s.phase = .failed
  · rw [if_pos hp]; exact h
  rw [if_neg hp]
  refine ⟨h.woken, h.coming, h.order, h.sync, h.live, fun hl f hf x hx => ?_⟩
  have ht := h.track hl f hf
  have hs : s.phase = .streaming := by
    rcases hl with h1 | h1
    · exact h1
    · exact absurd (Or.inl h1) hp
  show replay f (if s.phase = .streaming ∧ s.val c ≠ v then _ else s.stderr) x = upd s.val c v x
  by_cases hd : s.val c = v
  · rw [if_neg (by simp [hd]), ht x hx]
    by_cases hxc : x = c
    · simp [upd, hxc, hd]
    · simp [upd, hxc]
  · rw [if_pos ⟨hs, hd⟩, replay_append, replay_same _ _ _ _ _ hx]
    by_cases hxc : x = c
    · simp [upd, hxc]
    · simp only [upd, hxc, if_false]; exact ht x hx

theorem inv_step [DecidableEq V] {reg : List Cell} {s : Sys V} (h : Inv reg s) (x : Step V) : Inv reg (s.step reg x) := by
  cases x with
  | progTake => exact inv_progTake h
  | progStart =>
    show Inv reg (if s.phase = .woken then _ else s)
    by_cases hp : s.phase = .woken
    · rw [if_pos hp]
      have hh : s.hostEnv ≠ none := h.woken (by simp [hp])
      refine ⟨fun _ => hh, fun _ => ?_, order_snoc h _ (fun _ => h.coming hh), h.sync, ?_, ?_⟩
      · rcases h.coming hh with h1 | ⟨sn, h1⟩
        · exact Or.inl h1
        · exact Or.inr ⟨sn, by simp [h1]⟩
      · intro hl; rcases hl with hl | hl <;> cases hl
      · intro hl; rcases hl with hl | hl <;> cases hl
    · rw [if_neg hp]; exact h
  | progSet c v => exact inv_progSet h c v
  | progTimeout =>
    show Inv reg (if s.phase = .syncing then _ else s)
    by_cases hp : s.phase = .syncing
    · rw [if_pos hp]
      refine ⟨fun _ => h.woken (by simp [hp]), h.coming, h.order, h.sync, ?_, ?_⟩
      · intro hl; rcases hl with hl | hl <;> cases hl
      · intro hl; rcases hl with hl | hl <;> cases hl
    · rw [if_neg hp]; exact h
  | progEnd =>
    show Inv reg (if s.phase = .streaming then _ else s)
    by_cases hp : s.phase = .streaming
    · rw [if_pos hp]
      exact ⟨fun _ => h.woken (by simp [hp]), h.coming, h.order, h.sync, fun _ => h.live (Or.inl hp), fun _ => h.track (Or.inl hp)⟩
    · rw [if_neg hp]; exact h
  | hostTake => exact inv_hostTake h
  | hostErr => exact inv_hostErr h
  | hostSet c v => exact ⟨h.woken, h.coming, h.order, h.sync, h.live, h.track⟩
  | hostTimeout => exact ⟨h.woken, h.coming, h.order, h.sync, h.live, h.track⟩
  | hostShare =>
    show Inv reg (if s.stage = .done then _ else s)
    by_cases hp : s.stage = .done
    · rw [if_pos hp]
      exact ⟨h.woken, h.coming, h.order, fun hs => h.sync (by simpa using hs), h.live, h.track⟩
    · rw [if_neg hp]; exact h

theorem inv_run [DecidableEq V] {reg : List Cell} (l : List (Step V)) {s : Sys V} (h : Inv reg s) : Inv reg (s.run reg l) := by
  induction l generalizing s with
  | nil => exact h
  | cons x l ih => exact ih (inv_step h x)

/-- States that can occur. -/
def Reachable [DecidableEq V] (reg : List Cell) (s : Sys V) : Prop :=
  ∃ val hval pre l, s = (init val hval pre).run reg l

theorem reachable_inv [DecidableEq V] {reg : List Cell} {s : Sys V} (h : Reachable reg s) : Inv reg s := by
  obtain ⟨val, hval, pre, l, rfl⟩ := h
  exact inv_run l (inv_init reg val hval pre)

/-- C89. In every state of every schedule, time-outs included: once the program streams, the host
has a copy; applying what is still in the pipe to it gives the values of the program, and with an
empty pipe it has them. So also after the end of the program. -/
theorem C89_mirror [DecidableEq V] (reg : List Cell) (s : Sys V) (hr : Reachable reg s)
    (hl : s.phase = .streaming ∨ s.phase = .ended) :
    ∃ f, s.copy = some f ∧ (∀ c ∈ reg, replay f s.stderr c = s.val c) ∧ (s.stderr = [] → ∀ c ∈ reg, f c = s.val c) := by
  have h := reachable_inv hr
  cases hf : s.copy with
  | none => exact absurd hf (h.live hl)
  | some f =>
    refine ⟨f, rfl, h.track hl f hf, fun he c hc => ?_⟩
    have := h.track hl f hf c hc
    rw [he] at this
    exact this

/-! ### The copy shows a state the program was in -/

def handled : List (Step V) → Nat
  | [] => 0
  | .hostErr :: l => handled l + 1
  | _ :: l => handled l

theorem live_step [DecidableEq V] {reg : List Cell} {s : Sys V} (h : s.phase.live) (x : Step V) : (s.step reg x).phase.live := by
  rcases h with h | h
  · cases x with
    | progTake =>
      show (s.progTake reg).phase.live
      unfold Sys.progTake
      rw [if_neg (by simp [h])]
      split
      · exact Or.inl h
      · exact Or.inl h
      · exact Or.inl h
      · split
        · left; simp [h]
        · exact Or.inl h
      · rw [if_neg (by simp [h])]; exact Or.inl h
    | progStart => left; simp [Sys.step, h]
    | progSet c v => left; simp [Sys.step, Sys.progSet, h]
    | progTimeout => left; simp [Sys.step, h]
    | progEnd => right; simp [Sys.step, h]
    | hostTake =>
      left
      show s.hostTake.phase = .streaming
      unfold Sys.hostTake
      repeat' split
      all_goals exact h
    | hostErr =>
      left
      show s.hostErr.phase = .streaming
      unfold Sys.hostErr
      repeat' split
      all_goals exact h
    | hostSet c v => exact Or.inl h
    | hostTimeout => exact Or.inl h
    | hostShare => left; simp only [Sys.step]; split <;> exact h
  · right
    cases x with
    | progTake => simp [Sys.step, Sys.progTake, h]
    | progStart => simp [Sys.step, h]
    | progSet c v => simp [Sys.step, Sys.progSet, h]
    | progTimeout => simp [Sys.step, h]
    | progEnd => simp [Sys.step, h]
    | hostTake =>
      show s.hostTake.phase = .ended
      unfold Sys.hostTake
      repeat' split
      all_goals exact h
    | hostErr =>
      show s.hostErr.phase = .ended
      unfold Sys.hostErr
      repeat' split
      all_goals exact h
    | hostSet c v => exact h
    | hostTimeout => exact h
    | hostShare => simp only [Sys.step]; split <;> exact h

theorem live_run [DecidableEq V] {reg : List Cell} (l : List (Step V)) {s : Sys V} (h : s.phase.live) : (s.run reg l).phase.live := by
  induction l generalizing s with
  | nil => exact h
  | cons x l ih => exact ih (live_step h x)

theorem run_snoc [DecidableEq V] (reg : List Cell) (s : Sys V) (l : List (Step V)) (x : Step V) :
    s.run reg (l ++ [x]) = (s.run reg l).step reg x := by simp [Sys.run]

theorem handled_snoc (l : List (Step V)) (x : Step V) : handled (l ++ [x]) = handled l + handled [x] := by
  induction l with
  | nil => simp [handled]
  | cons y l ih => cases y <;> simp only [List.cons_append, handled, ih] <;> omega

/-- Steps that write nothing while streaming and leave the program and the copy alone. -/
theorem quiet_step [DecidableEq V] {reg : List Cell} {s : Sys V} (hl : s.phase.live) (hc : s.copy ≠ none) (x : Step V)
    (hx : x ≠ .hostErr) (hx2 : ∀ c v, x ≠ .progSet c v) :
    (s.step reg x).val = s.val ∧ (s.step reg x).stderr = s.stderr ∧ (s.step reg x).copy = s.copy := by
  have hns : s.phase ≠ .syncing := by rcases hl with h | h <;> simp [h]
  cases x with
  | progTake =>
    show (s.progTake reg).val = _ ∧ (s.progTake reg).stderr = _ ∧ (s.progTake reg).copy = _
    unfold Sys.progTake
    split
    · exact ⟨rfl, rfl, rfl⟩
    · split
      · exact ⟨rfl, rfl, rfl⟩
      · exact ⟨rfl, rfl, rfl⟩
      · exact ⟨rfl, rfl, rfl⟩
      · split <;> exact ⟨rfl, rfl, rfl⟩
      · simp only [hns, if_false]; exact ⟨trivial, trivial, trivial⟩
  | progStart => simp only [Sys.step]; split <;> exact ⟨rfl, rfl, rfl⟩
  | progSet c v => exact absurd rfl (hx2 c v)
  | progTimeout => simp only [Sys.step]; split <;> exact ⟨rfl, rfl, rfl⟩
  | progEnd => simp only [Sys.step]; split <;> exact ⟨rfl, rfl, rfl⟩
  | hostTake =>
    show s.hostTake.val = _ ∧ s.hostTake.stderr = _ ∧ s.hostTake.copy = _
    unfold Sys.hostTake
    split
    · exact ⟨rfl, rfl, rfl⟩
    · split <;> exact ⟨rfl, rfl, rfl⟩
    · split <;> exact ⟨rfl, rfl, rfl⟩
    · refine ⟨rfl, rfl, ?_⟩
      cases hcp : s.copy with
      | none => exact absurd hcp hc
      | some f => simp
    · exact ⟨rfl, rfl, rfl⟩
    · exact ⟨rfl, rfl, rfl⟩
  | hostErr => exact absurd rfl hx
  | hostSet c v => exact ⟨rfl, rfl, rfl⟩
  | hostTimeout => exact ⟨rfl, rfl, rfl⟩
  | hostShare => simp only [Sys.step]; split <;> exact ⟨rfl, rfl, rfl⟩

theorem past_inv [DecidableEq V] (reg : List Cell) (s : Sys V) (hr : Reachable reg s) (hl : s.phase.live) (l : List (Step V)) :
    ∃ f, (s.run reg l).copy = some f ∧ ∀ k, k ≤ (s.run reg l).stderr.length → s.stderr.length ≤ handled l + k →
      ∃ p, p <+: l ∧ ∀ c ∈ reg, replay f ((s.run reg l).stderr.take k) c = (s.run reg p).val c := by
  induction l using List.reverseRecOn with
  | nil =>
    obtain ⟨f, h1, h2, -⟩ := C89_mirror reg s hr hl
    refine ⟨f, h1, fun k hk hk2 => ⟨[], List.prefix_refl _, fun c hc => ?_⟩⟩
    have hk' : k ≤ s.stderr.length := hk
    have : s.stderr.length ≤ k := by simpa [handled] using hk2
    show replay f (s.stderr.take k) c = s.val c
    rw [List.take_of_length_le this]
    exact h2 c hc
  | append_singleton l x ih =>
    obtain ⟨f, h1, h2⟩ := ih
    have hr' : Reachable reg (s.run reg l) := by
      obtain ⟨a, b, c, l0, rfl⟩ := hr
      exact ⟨a, b, c, l0 ++ l, by simp [Sys.run]⟩
    have hl' : (s.run reg l).phase.live := live_run l hl
    rw [run_snoc, handled_snoc]
    generalize hs' : s.run reg l = t at h1 h2 hr' hl'
    by_cases hx : x = .hostErr
    · subst hx
      show ∃ f, t.hostErr.copy = some f ∧ _
      simp only [Sys.step]
      cases he : t.stderr with
      | nil =>
        have : t.hostErr = t := by rw [Sys.hostErr, he]
        rw [this]
        refine ⟨f, h1, fun k hk hk2 => ?_⟩
        rw [he] at hk ⊢
        simp only [List.length_nil, Nat.le_zero] at hk
        subst hk
        -- nothing was in the pipe: the copy is up to date
        obtain ⟨g, g1, g2, g3⟩ := C89_mirror reg t hr' hl'
        refine ⟨l, List.prefix_append _ _, fun c hc => ?_⟩
        rw [hs']
        rw [h1] at g1
        cases g1
        exact g3 he c hc
      | cons ev r =>
        obtain ⟨c0, v0⟩ := ev
        have e1 : t.hostErr = { t with stderr := r, copy := t.copy.map fun f => upd f c0 v0 } := by rw [Sys.hostErr, he]
        rw [e1]
        refine ⟨upd f c0 v0, by simp [h1], fun k hk hk2 => ?_⟩
        obtain ⟨p, hp, hv⟩ := h2 (k + 1) (by rw [he]; simpa using hk) (by simp [handled] at hk2; omega)
        refine ⟨p, hp.trans (List.prefix_append _ _), fun c hc => ?_⟩
        have := hv c hc
        rw [he] at this
        exact this
    · by_cases hx2 : ∃ c v, x = .progSet c v
      · obtain ⟨c0, v0, rfl⟩ := hx2
        show ∃ f, (t.progSet reg c0 v0).copy = some f ∧ _
        have hh : handled ([.progSet c0 v0] : List (Step V)) = 0 := rfl
        rw [hh, Nat.add_zero]
        simp only [Sys.step]
        have hcp : (t.progSet reg c0 v0).copy = t.copy := by unfold Sys.progSet; split <;> rfl
        refine ⟨f, by rw [hcp, h1], fun k hk hk2 => ?_⟩
        by_cases hle : k ≤ t.stderr.length
        · obtain ⟨p, hp, hv⟩ := h2 k hle hk2
          refine ⟨p, hp.trans (List.prefix_append _ _), fun c hc => ?_⟩
          rw [← hv c hc]
          have : (t.progSet reg c0 v0).stderr.take k = t.stderr.take k := by
            unfold Sys.progSet
            split
            · rfl
            · simp only
              split
              · rw [List.take_append_of_le_length hle]
              · rfl
          rw [this]
        · have hne : ¬ (t.phase = .ended ∨ t.phase = .failed) := by
            intro hcon
            rw [Sys.progSet, if_pos hcon] at hk
            exact hle hk
          rw [Sys.progSet, if_neg hne] at hk ⊢
          simp only at hk ⊢
          by_cases hcond : t.phase = .streaming ∧ t.val c0 ≠ v0
          · rw [if_pos hcond] at hk ⊢
            refine ⟨l ++ [.progSet c0 v0], List.prefix_refl _, fun c hc => ?_⟩
            rw [run_snoc, hs']
            show replay f _ c = (t.progSet reg c0 v0).val c
            rw [Sys.progSet, if_neg hne]
            show replay f _ c = upd t.val c0 v0 c
            have hgt : t.stderr.length < k := by omega
            rw [List.take_append, List.take_of_length_le (by omega), replay_append]
            -- at least one of the equal events
            obtain ⟨g, g1, g2, -⟩ := C89_mirror reg t hr' hl'
            rw [h1] at g1
            cases g1
            generalize hj : k - t.stderr.length = j
            have hj0 : 0 < j := by omega
            rw [← List.map_take, replay_cells _ (fun _ => v0)]
            by_cases hcc : c = c0
            · subst hcc
              have hmem : c ∈ (reg.filter (· = c)).take j := by
                have hin : c ∈ reg.filter (· = c) := by simp [hc]
                have hall : ∀ y ∈ reg.filter (· = c), y = c := by intro y hy; simpa using (List.mem_filter.mp hy).2
                cases hfl : reg.filter (· = c) with
                | nil => rw [hfl] at hin; cases hin
                | cons y ys =>
                  have : y = c := hall y (by rw [hfl]; simp)
                  subst this
                  cases j with
                  | zero => omega
                  | succ j => simp
              rw [if_pos hmem]; simp [upd]
            · have hnm : c ∉ (reg.filter (· = c0)).take j := by
                intro hm
                have := List.mem_of_mem_take hm
                simp [hcc] at this
              rw [if_neg hnm, g2 c hc]; simp [upd, hcc]
          · rw [if_neg hcond] at hk
            exact absurd hk hle
      · have hh : handled [x] = 0 := by cases x <;> first | rfl | exact absurd rfl hx
        obtain ⟨q1, q2, q3⟩ := quiet_step (reg := reg) hl' (by rw [h1]; simp) x hx (fun c v e => hx2 ⟨c, v, e⟩)
        rw [hh, Nat.add_zero, q2, q3]
        refine ⟨f, h1, fun k hk hk2 => ?_⟩
        obtain ⟨p, hp, hv⟩ := h2 k hk hk2
        exact ⟨p, hp.trans (List.prefix_append _ _), hv⟩

/-- C89. What the host sees is a state the program was in, all cells together, and not an old one:
once the host has handled as many events as were in the pipe at some moment of streaming, its copy
is the program's values at that moment or a later one. -/
theorem C89_past [DecidableEq V] (reg : List Cell) (s : Sys V) (hr : Reachable reg s)
    (hl : s.phase = .streaming ∨ s.phase = .ended) (l : List (Step V)) (hn : s.stderr.length ≤ handled l) :
    ∃ f p, (s.run reg l).copy = some f ∧ p <+: l ∧ ∀ c ∈ reg, f c = (s.run reg p).val c := by
  obtain ⟨f, h1, h2⟩ := past_inv reg s hr hl l
  obtain ⟨p, hp, hv⟩ := h2 0 (by omega) (by omega)
  exact ⟨f, p, h1, hp, hv⟩

/-! ### The exchange completes -/

/-- No time-outs, and the environment is not shared again. -/
def Patient (x : Step V) : Prop := x ≠ .hostTimeout ∧ x ≠ .progTimeout ∧ x ≠ .hostShare

/-- Neither has the other's environment. -/
def Fresh (s : Sys V) : Prop := s.hostEnv = none ∧ s.copy = none

theorem done_step [DecidableEq V] {reg : List Cell} {s : Sys V} (h : s.stage = .done) (x : Step V) : (s.step reg x).stage = .done := by
  cases x with
  | progTake =>
    show (s.progTake reg).stage = .done
    unfold Sys.progTake
    repeat' split
    all_goals exact h
  | progSet c v =>
    show (s.progSet reg c v).stage = .done
    unfold Sys.progSet
    split <;> exact h
  | hostTake =>
    show s.hostTake.stage = .done
    unfold Sys.hostTake
    cases s.stdout with
    | nil => exact h
    | cons m r => cases m <;> simp [h]
  | hostErr =>
    show s.hostErr.stage = .done
    unfold Sys.hostErr
    split <;> exact h
  | hostSet c v => exact h
  | hostTimeout => rfl
  | progStart => simp only [Sys.step]; split <;> exact h
  | progTimeout => simp only [Sys.step]; split <;> exact h
  | progEnd => simp only [Sys.step]; split <;> exact h
  | hostShare => simp only [Sys.step]; split <;> exact h

/-- Where the exchange is. -/
inductive At : Nat → Sys V → Prop where
  | p0 (s : Sys V) : s.stage = .loop → s.phase = .waiting → s.stdin = [.loop] → s.stdout = [] → Fresh s → At 0 s
  | p1 (s : Sys V) : s.stage = .loop → s.phase = .waiting → s.stdin = [] → s.stdout = [.loop] → Fresh s → At 1 s
  | p2 (s : Sys V) : s.stage = .info → s.phase = .waiting → s.stdin = [.info] → s.stdout = [] → Fresh s → At 2 s
  | p3 (s : Sys V) : s.stage = .info → s.phase = .waiting → s.stdin = [] → s.stdout = [.info] → Fresh s → At 3 s
  | p4 (s : Sys V) (a : Cell → V) : s.stage = .env → s.phase = .waiting → s.stdin = [.env a] → s.stdout = [] → Fresh s → At 4 s
  | p5 (s : Sys V) (a : Cell → V) : s.stage = .env → s.phase = .woken → s.stdin = [] → s.stdout = [.env a] → At 5 s
  | p6 (s : Sys V) : s.stage = .done → s.phase = .woken → s.stdin = [] → s.stdout = [] → At 6 s
  | p7 (s : Sys V) (a : Cell → V) : s.stage = .env → s.phase = .syncing → s.stdin = [] → s.stdout = [.env a, .sync] → At 7 s
  | p8 (s : Sys V) : s.stage = .done → s.phase = .syncing → s.stdin = [] → s.stdout = [.sync] → At 8 s
  | p9 (s : Sys V) : s.stage = .done → s.phase = .syncing → s.stdin = [.sync] → s.stdout = [] → At 9 s
  | p10 (s : Sys V) : s.phase.live → s.stage = .done → At 10 s

/-- Every patient step keeps or advances the place. -/
theorem at_step [DecidableEq V] {reg : List Cell} {n : Nat} {s : Sys V} (h : At n s) (x : Step V) (hx : Patient x) :
    ∃ m, n ≤ m ∧ At m (s.step reg x) := by
  have keep : ∀ (t : Sys V), t.stage = s.stage → t.phase = s.phase → t.stdin = s.stdin → t.stdout = s.stdout →
      (Fresh s → Fresh t) → At n t := by
    intro t e1 e2 e3 e4 e5
    cases h with
    | p0 _ a b c d e => exact .p0 _ (by rw [e1, a]) (by rw [e2, b]) (by rw [e3, c]) (by rw [e4, d]) (e5 e)
    | p1 _ a b c d e => exact .p1 _ (by rw [e1, a]) (by rw [e2, b]) (by rw [e3, c]) (by rw [e4, d]) (e5 e)
    | p2 _ a b c d e => exact .p2 _ (by rw [e1, a]) (by rw [e2, b]) (by rw [e3, c]) (by rw [e4, d]) (e5 e)
    | p3 _ a b c d e => exact .p3 _ (by rw [e1, a]) (by rw [e2, b]) (by rw [e3, c]) (by rw [e4, d]) (e5 e)
    | p4 _ f a b c d e => exact .p4 _ f (by rw [e1, a]) (by rw [e2, b]) (by rw [e3, c]) (by rw [e4, d]) (e5 e)
    | p5 _ f a b c d => exact .p5 _ f (by rw [e1, a]) (by rw [e2, b]) (by rw [e3, c]) (by rw [e4, d])
    | p6 _ a b c d => exact .p6 _ (by rw [e1, a]) (by rw [e2, b]) (by rw [e3, c]) (by rw [e4, d])
    | p7 _ f a b c d => exact .p7 _ f (by rw [e1, a]) (by rw [e2, b]) (by rw [e3, c]) (by rw [e4, d])
    | p8 _ a b c d => exact .p8 _ (by rw [e1, a]) (by rw [e2, b]) (by rw [e3, c]) (by rw [e4, d])
    | p9 _ a b c d => exact .p9 _ (by rw [e1, a]) (by rw [e2, b]) (by rw [e3, c]) (by rw [e4, d])
    | p10 _ a b => exact .p10 _ (by rw [e2]; exact a) (by rw [e1]; exact b)
  cases x with
  | hostTimeout => exact absurd rfl hx.1
  | progTimeout => exact absurd rfl hx.2.1
  | hostShare => exact absurd rfl hx.2.2
  | hostSet c v => exact ⟨n, Nat.le_refl _, keep _ rfl rfl rfl rfl id⟩
  | hostErr =>
    refine ⟨n, Nat.le_refl _, ?_⟩
    show At n s.hostErr
    unfold Sys.hostErr
    split
    · exact keep _ rfl rfl rfl rfl id
    · exact keep _ rfl rfl rfl rfl (fun hh => ⟨hh.1, by simp [hh.2]⟩)
  | progSet c v =>
    refine ⟨n, Nat.le_refl _, ?_⟩
    show At n (s.progSet reg c v)
    unfold Sys.progSet
    split
    · exact keep _ rfl rfl rfl rfl id
    · exact keep _ rfl rfl rfl rfl id
  | progEnd =>
    show ∃ m, n ≤ m ∧ At m (if s.phase = .streaming then _ else s)
    by_cases hp : s.phase = .streaming
    · rw [if_pos hp]
      have : n ≤ 10 := by cases h <;> omega
      have hd : s.stage = .done := by
        cases h with
        | p10 _ _ b => exact b
        | _ => simp_all
      exact ⟨10, this, .p10 _ (Or.inr rfl) hd⟩
    · rw [if_neg hp]; exact ⟨n, Nat.le_refl _, h⟩
  | progStart =>
    cases h with
    | p5 _ f a b c d => exact ⟨7, by omega, .p7 _ f (by simp [Sys.step, a, b]) (by simp [Sys.step, b]) (by simp [Sys.step, b, c]) (by simp [Sys.step, b, d])⟩
    | p6 _ a b c d => exact ⟨8, by omega, .p8 _ (by simp [Sys.step, a, b]) (by simp [Sys.step, b]) (by simp [Sys.step, b, c]) (by simp [Sys.step, b, d])⟩
    | p10 _ a b => exact ⟨10, by omega, .p10 _ (live_step a _) (done_step b _)⟩
    | p0 _ a b c d e => exact ⟨0, by omega, by simpa [Sys.step, b] using At.p0 s a b c d e⟩
    | p1 _ a b c d e => exact ⟨1, by omega, by simpa [Sys.step, b] using At.p1 s a b c d e⟩
    | p2 _ a b c d e => exact ⟨2, by omega, by simpa [Sys.step, b] using At.p2 s a b c d e⟩
    | p3 _ a b c d e => exact ⟨3, by omega, by simpa [Sys.step, b] using At.p3 s a b c d e⟩
    | p4 _ f a b c d e => exact ⟨4, by omega, by simpa [Sys.step, b] using At.p4 s f a b c d e⟩
    | p7 _ f a b c d => exact ⟨7, by omega, by simpa [Sys.step, b] using At.p7 s f a b c d⟩
    | p8 _ a b c d => exact ⟨8, by omega, by simpa [Sys.step, b] using At.p8 s a b c d⟩
    | p9 _ a b c d => exact ⟨9, by omega, by simpa [Sys.step, b] using At.p9 s a b c d⟩
  | progTake =>
    cases h with
    | p10 _ a b => exact ⟨10, by omega, .p10 _ (live_step a _) (done_step b _)⟩
    | p0 _ a b c d e =>
      exact ⟨1, by omega, .p1 _ (by simp [Sys.step, Sys.progTake, a, b, c]) (by simp [Sys.step, Sys.progTake, b, c])
        (by simp [Sys.step, Sys.progTake, b, c]) (by simp [Sys.step, Sys.progTake, b, c, d]) (by simpa [Fresh, Sys.step, Sys.progTake, b, c] using e)⟩
    | p2 _ a b c d e =>
      exact ⟨3, by omega, .p3 _ (by simp [Sys.step, Sys.progTake, a, b, c]) (by simp [Sys.step, Sys.progTake, b, c])
        (by simp [Sys.step, Sys.progTake, b, c]) (by simp [Sys.step, Sys.progTake, b, c, d]) (by simpa [Fresh, Sys.step, Sys.progTake, b, c] using e)⟩
    | p4 _ f a b c d e =>
      exact ⟨5, by omega, .p5 _ s.val (by simp [Sys.step, Sys.progTake, a, b, c, e.1]) (by simp [Sys.step, Sys.progTake, b, c, e.1])
        (by simp [Sys.step, Sys.progTake, b, c, e.1]) (by simp [Sys.step, Sys.progTake, b, c, d, e.1])⟩
    | p9 _ a b c d => exact ⟨10, by omega, .p10 _ (Or.inl (by simp [Sys.step, Sys.progTake, b, c])) (done_step a _)⟩
    | p1 _ a b c d e => exact ⟨1, by omega, by simpa [Sys.step, Sys.progTake, b, c] using At.p1 s a b c d e⟩
    | p3 _ a b c d e => exact ⟨3, by omega, by simpa [Sys.step, Sys.progTake, b, c] using At.p3 s a b c d e⟩
    | p5 _ f a b c d => exact ⟨5, by omega, by simpa [Sys.step, Sys.progTake, b, c] using At.p5 s f a b c d⟩
    | p6 _ a b c d => exact ⟨6, by omega, by simpa [Sys.step, Sys.progTake, b, c] using At.p6 s a b c d⟩
    | p7 _ f a b c d => exact ⟨7, by omega, by simpa [Sys.step, Sys.progTake, b, c] using At.p7 s f a b c d⟩
    | p8 _ a b c d => exact ⟨8, by omega, by simpa [Sys.step, Sys.progTake, b, c] using At.p8 s a b c d⟩
  | hostTake =>
    cases h with
    | p10 _ a b => exact ⟨10, by omega, .p10 _ (live_step a _) (done_step b _)⟩
    | p1 _ a b c d e =>
      exact ⟨2, by omega, .p2 _ (by simp [Sys.step, Sys.hostTake, a, d]) (by simp [Sys.step, Sys.hostTake, a, b, d])
        (by simp [Sys.step, Sys.hostTake, a, c, d]) (by simp [Sys.step, Sys.hostTake, a, d]) (by simpa [Fresh, Sys.step, Sys.hostTake, a, d] using e)⟩
    | p3 _ a b c d e =>
      exact ⟨4, by omega, .p4 _ s.hval (by simp [Sys.step, Sys.hostTake, a, d]) (by simp [Sys.step, Sys.hostTake, a, b, d])
        (by simp [Sys.step, Sys.hostTake, a, c, d]) (by simp [Sys.step, Sys.hostTake, a, d]) (by simpa [Fresh, Sys.step, Sys.hostTake, a, d] using e)⟩
    | p5 _ f a b c d =>
      exact ⟨6, by omega, .p6 _ (by simp [Sys.step, Sys.hostTake, a, d]) (by simp [Sys.step, Sys.hostTake, b, d])
        (by simp [Sys.step, Sys.hostTake, c, d]) (by simp [Sys.step, Sys.hostTake, d])⟩
    | p7 _ f a b c d =>
      exact ⟨8, by omega, .p8 _ (by simp [Sys.step, Sys.hostTake, a, d]) (by simp [Sys.step, Sys.hostTake, b, d])
        (by simp [Sys.step, Sys.hostTake, c, d]) (by simp [Sys.step, Sys.hostTake, d])⟩
    | p8 _ a b c d =>
      exact ⟨9, by omega, .p9 _ (by simp [Sys.step, Sys.hostTake, a, d]) (by simp [Sys.step, Sys.hostTake, b, d])
        (by simp [Sys.step, Sys.hostTake, c, d]) (by simp [Sys.step, Sys.hostTake, d])⟩
    | p0 _ a b c d e => exact ⟨0, by omega, by simpa [Sys.step, Sys.hostTake, d] using At.p0 s a b c d e⟩
    | p2 _ a b c d e => exact ⟨2, by omega, by simpa [Sys.step, Sys.hostTake, d] using At.p2 s a b c d e⟩
    | p4 _ f a b c d e => exact ⟨4, by omega, by simpa [Sys.step, Sys.hostTake, d] using At.p4 s f a b c d e⟩
    | p6 _ a b c d => exact ⟨6, by omega, by simpa [Sys.step, Sys.hostTake, d] using At.p6 s a b c d⟩
    | p9 _ a b c d => exact ⟨9, by omega, by simpa [Sys.step, Sys.hostTake, d] using At.p9 s a b c d⟩

/-- The place a turn moves on from `n`. -/
def mover : Nat → Step V
  | 0 => .progTake
  | 1 => .hostTake
  | 2 => .progTake
  | 3 => .hostTake
  | 4 => .progTake
  | 5 => .hostTake
  | 6 => .progStart
  | 7 => .hostTake
  | 8 => .hostTake
  | _ => .progTake

theorem at_move [DecidableEq V] {reg : List Cell} {n : Nat} {s : Sys V} (h : At n s) (hn : n < 10) :
    ∃ m, n < m ∧ At m (s.step reg (mover n)) := by
  cases h with
  | p0 _ a b c d e =>
    exact ⟨1, by omega, .p1 _ (by simp [mover, Sys.step, Sys.progTake, a, b, c]) (by simp [mover, Sys.step, Sys.progTake, b, c])
      (by simp [mover, Sys.step, Sys.progTake, b, c]) (by simp [mover, Sys.step, Sys.progTake, b, c, d]) (by simpa [Fresh, mover, Sys.step, Sys.progTake, b, c] using e)⟩
  | p1 _ a b c d e =>
    exact ⟨2, by omega, .p2 _ (by simp [mover, Sys.step, Sys.hostTake, a, d]) (by simp [mover, Sys.step, Sys.hostTake, a, b, d])
      (by simp [mover, Sys.step, Sys.hostTake, a, c, d]) (by simp [mover, Sys.step, Sys.hostTake, a, d]) (by simpa [Fresh, mover, Sys.step, Sys.hostTake, a, d] using e)⟩
  | p2 _ a b c d e =>
    exact ⟨3, by omega, .p3 _ (by simp [mover, Sys.step, Sys.progTake, a, b, c]) (by simp [mover, Sys.step, Sys.progTake, b, c])
      (by simp [mover, Sys.step, Sys.progTake, b, c]) (by simp [mover, Sys.step, Sys.progTake, b, c, d]) (by simpa [Fresh, mover, Sys.step, Sys.progTake, b, c] using e)⟩
  | p3 _ a b c d e =>
    exact ⟨4, by omega, .p4 _ s.hval (by simp [mover, Sys.step, Sys.hostTake, a, d]) (by simp [mover, Sys.step, Sys.hostTake, a, b, d])
      (by simp [mover, Sys.step, Sys.hostTake, a, c, d]) (by simp [mover, Sys.step, Sys.hostTake, a, d]) (by simpa [Fresh, mover, Sys.step, Sys.hostTake, a, d] using e)⟩
  | p4 _ f a b c d e =>
    exact ⟨5, by omega, .p5 _ s.val (by simp [mover, Sys.step, Sys.progTake, a, b, c, e.1]) (by simp [mover, Sys.step, Sys.progTake, b, c, e.1])
      (by simp [mover, Sys.step, Sys.progTake, b, c, e.1]) (by simp [mover, Sys.step, Sys.progTake, b, c, d, e.1])⟩
  | p5 _ f a b c d =>
    exact ⟨6, by omega, .p6 _ (by simp [mover, Sys.step, Sys.hostTake, a, d]) (by simp [mover, Sys.step, Sys.hostTake, b, d])
      (by simp [mover, Sys.step, Sys.hostTake, c, d]) (by simp [mover, Sys.step, Sys.hostTake, d])⟩
  | p6 _ a b c d =>
    exact ⟨8, by omega, .p8 _ (by simp [mover, Sys.step, a, b]) (by simp [mover, Sys.step, b]) (by simp [mover, Sys.step, b, c]) (by simp [mover, Sys.step, b, d])⟩
  | p7 _ f a b c d =>
    exact ⟨8, by omega, .p8 _ (by simp [mover, Sys.step, Sys.hostTake, a, d]) (by simp [mover, Sys.step, Sys.hostTake, b, d])
      (by simp [mover, Sys.step, Sys.hostTake, c, d]) (by simp [mover, Sys.step, Sys.hostTake, d])⟩
  | p8 _ a b c d =>
    exact ⟨9, by omega, .p9 _ (by simp [mover, Sys.step, Sys.hostTake, a, d]) (by simp [mover, Sys.step, Sys.hostTake, b, d])
      (by simp [mover, Sys.step, Sys.hostTake, c, d]) (by simp [mover, Sys.step, Sys.hostTake, d])⟩
  | p9 _ a b c d => exact ⟨10, by omega, .p10 _ (Or.inl (by simp [mover, Sys.step, Sys.progTake, b, c])) (done_step a _)⟩
  | p10 _ a b => omega

theorem at_run [DecidableEq V] {reg : List Cell} (l : List (Step V)) (hl : ∀ x ∈ l, Patient x) {n : Nat} {s : Sys V} (h : At n s) :
    ∃ m, n ≤ m ∧ At m (s.run reg l) ∧ (mover n ∈ l → n < 10 → n < m) := by
  induction l generalizing n s with
  | nil => exact ⟨n, Nat.le_refl _, h, fun hh => by cases hh⟩
  | cons x l ih =>
    obtain ⟨m, h1, h2⟩ := at_step (reg := reg) h x (hl x (by simp))
    obtain ⟨k, h3, h4, h5⟩ := ih (fun y hy => hl y (by simp [hy])) h2
    refine ⟨k, by omega, h4, fun hm hn => ?_⟩
    rcases List.mem_cons.mp hm with rfl | hm
    · obtain ⟨m', g1, g2⟩ := at_move (reg := reg) h hn
      obtain ⟨k', g3, g4, -⟩ := ih (fun y hy => hl y (by simp [hy])) g2
      have : k = k' := by
        clear h5
        have e1 : ∀ {i j : Nat} {t : Sys V}, At i t → At j t → i = j := by
          intro i j t ha hb
          cases ha <;> cases hb <;> first | rfl | simp_all [Phase.live]
        exact e1 h4 g4
      omega
    · by_cases hnm : n < m
      · omega
      · have : n = m := by omega
        subst this
        exact h5 hm hn

/-- Each of the three takes a turn. -/
def Fair (seg : List (Step V)) : Prop := .progTake ∈ seg ∧ .progStart ∈ seg ∧ .hostTake ∈ seg

/-- C89. Without time-outs the exchange completes: every schedule that can be cut into ten parts,
in each of which the program handles a message, `running` gets a turn and the host handles a
message, whatever else happens, brings the program to streaming. -/
theorem C89_completes [DecidableEq V] (reg : List Cell) (val hval : Cell → V) (pre : List (Cell × V)) (segs : List (List (Step V)))
    (hlen : 10 ≤ segs.length) (hp : ∀ seg ∈ segs, ∀ x ∈ seg, Patient x) (hf : ∀ seg ∈ segs, Fair seg) :
    let s := (init val hval pre).run reg segs.flatten
    s.phase = .streaming ∨ s.phase = .ended := by
  have key : ∀ (segs : List (List (Step V))) (n : Nat) (s : Sys V), At n s → (∀ seg ∈ segs, ∀ x ∈ seg, Patient x) →
      (∀ seg ∈ segs, Fair seg) → ∃ m, At m (s.run reg segs.flatten) ∧ (10 ≤ m ∨ n + segs.length ≤ m) := by
    intro segs
    induction segs with
    | nil => intro n s h _ _; exact ⟨n, h, Or.inr (by simp)⟩
    | cons seg segs ih =>
      intro n s h hp hf
      obtain ⟨m, h1, h2, h3⟩ := at_run (reg := reg) seg (hp seg (by simp)) h
      obtain ⟨k, h4, h5⟩ := ih m _ h2 (fun x hx => hp x (by simp [hx])) (fun x hx => hf x (by simp [hx]))
      have hr : s.run reg (seg :: segs).flatten = (s.run reg seg).run reg segs.flatten := by simp [Sys.run]
      refine ⟨k, by rw [hr]; exact h4, ?_⟩
      have hmono : m ≤ k := by
        rcases h5 with h5 | h5
        · have : m ≤ 10 := by cases h2 <;> omega
          omega
        · omega
      by_cases hn : n < 10
      · have hmv : mover n ∈ seg := by
          have := hf seg (by simp)
          unfold mover
          split <;> first | exact this.1 | exact this.2.1 | exact this.2.2
        have := h3 hmv hn
        rcases h5 with h5 | h5
        · exact Or.inl h5
        · exact Or.inr (by simp; omega)
      · exact Or.inl (by omega)
  obtain ⟨m, h1, h2⟩ := key segs 0 _ (.p0 (init val hval pre) rfl rfl rfl rfl ⟨rfl, rfl⟩) hp hf
  have : m = 10 := by
    have : m ≤ 10 := by cases h1 <;> omega
    omega
  subst this
  show Phase.live _
  generalize (init val hval pre).run reg segs.flatten = t at h1
  cases h1 with
  | p10 _ a _ => exact a

/-! ### What fails -/

theorem forever [DecidableEq V] {reg : List Cell} (P : Sys V → Prop) (ok : Step V → Prop)
    (hs : ∀ s x, P s → ok x → P (s.step reg x)) (l : List (Step V)) (hl : ∀ x ∈ l, ok x) {s : Sys V} (h : P s) : P (s.run reg l) := by
  induction l generalizing s with
  | nil => exact h
  | cons x l ih => exact ih (fun y hy => hl y (by simp [hy])) (hs s x h (hl x (by simp)))

/-- C89 fails for a program that is slow to start: when the host's first or second message is not
answered in time, it goes on without sharing its environment, and the program waits for it for
ever. -/
theorem C89_slow_fails [DecidableEq V] (reg : List Cell) (val hval : Cell → V) (pre : List (Cell × V)) (l : List (Step V))
    (hl : ∀ x ∈ l, Patient x) (hst : ((init val hval pre).run reg l).stage = .loop ∨ ((init val hval pre).run reg l).stage = .info)
    (later : List (Step V)) (hn : ∀ x ∈ later, x ≠ .hostShare) :
    ((init val hval pre).run reg (l ++ .hostTimeout :: later)).phase = .waiting ∧
    ((init val hval pre).run reg (l ++ .hostTimeout :: later)).copy = none := by
  obtain ⟨n, -, hat, -⟩ := at_run (reg := reg) l hl (At.p0 (init val hval pre) rfl rfl rfl rfl ⟨rfl, rfl⟩)
  generalize hs : (init val hval pre).run reg l = s at hst hat
  have hrun : (init val hval pre).run reg (l ++ .hostTimeout :: later) = (s.step reg .hostTimeout).run reg later := by
    rw [← hs]; simp [Sys.run]
  rw [hrun]
  let P : Sys V → Prop := fun t => t.phase = .waiting ∧ t.copy = none ∧ t.stage = .done ∧
    (∀ m ∈ t.stdin, m = .loop ∨ m = .info) ∧ (∀ m ∈ t.stdout, m = .loop ∨ m = .info)
  have h0 : P (s.step reg .hostTimeout) := by
    cases hat with
    | p0 _ a b c d e => exact ⟨b, e.2, rfl, by simp [Sys.step, c], by simp [Sys.step, d]⟩
    | p1 _ a b c d e => exact ⟨b, e.2, rfl, by simp [Sys.step, c], by simp [Sys.step, d]⟩
    | p2 _ a b c d e => exact ⟨b, e.2, rfl, by simp [Sys.step, c], by simp [Sys.step, d]⟩
    | p3 _ a b c d e => exact ⟨b, e.2, rfl, by simp [Sys.step, c], by simp [Sys.step, d]⟩
    | p4 _ f a b c d e => rw [a] at hst; simp at hst
    | p5 _ f a b c d => rw [a] at hst; simp at hst
    | p6 _ a b c d => rw [a] at hst; simp at hst
    | p7 _ f a b c d => rw [a] at hst; simp at hst
    | p8 _ a b c d => rw [a] at hst; simp at hst
    | p9 _ a b c d => rw [a] at hst; simp at hst
    | p10 _ a b => rw [b] at hst; simp at hst
  have hstep : ∀ t x, P t → x ≠ .hostShare → P (t.step reg x) := by
    rintro t x ⟨h1, h2, h3, h4, h5⟩ hx
    cases x with
    | hostShare => exact absurd rfl hx
    | hostTimeout => exact ⟨h1, h2, rfl, h4, h5⟩
    | hostSet c v => exact ⟨h1, h2, h3, h4, h5⟩
    | progStart => simp only [Sys.step, h1]; exact ⟨h1, h2, h3, h4, h5⟩
    | progTimeout => simp only [Sys.step, h1]; exact ⟨h1, h2, h3, h4, h5⟩
    | progEnd => simp only [Sys.step, h1]; exact ⟨h1, h2, h3, h4, h5⟩
    | progSet c v =>
      show P (t.progSet reg c v)
      rw [Sys.progSet, if_neg (by simp [h1])]
      exact ⟨h1, h2, h3, h4, h5⟩
    | hostErr =>
      simp only [Sys.step, Sys.hostErr]
      split
      · exact ⟨h1, h2, h3, h4, h5⟩
      · exact ⟨h1, by simp [h2], h3, h4, h5⟩
    | progTake =>
      show P (t.progTake reg)
      unfold Sys.progTake
      rw [if_neg (by simp [h1])]
      cases hi : t.stdin with
      | nil => exact ⟨h1, h2, h3, h4, h5⟩
      | cons m r =>
        rw [hi] at h4
        have h4' : ∀ m ∈ r, m = .loop ∨ m = .info := fun m hm => h4 m (by simp [hm])
        have hpush : ∀ q : PMsg V, (q = .loop ∨ q = .info) → ∀ m ∈ t.stdout ++ [q], m = .loop ∨ m = .info := by
          intro q hq m hm
          rcases List.mem_append.mp hm with hm | hm
          · exact h5 m hm
          · rw [List.mem_singleton.mp hm]; exact hq
        rcases h4 m (by simp) with rfl | rfl
        · exact ⟨h1, h2, h3, h4', hpush _ (Or.inl rfl)⟩
        · exact ⟨h1, h2, h3, h4', hpush _ (Or.inr rfl)⟩
    | hostTake =>
      show P t.hostTake
      unfold Sys.hostTake
      cases ho : t.stdout with
      | nil => exact ⟨h1, h2, h3, h4, h5⟩
      | cons m r =>
        rw [ho] at h5
        have h5' : ∀ m ∈ r, m = .loop ∨ m = .info := fun m hm => h5 m (by simp [hm])
        rcases h5 m (by simp) with rfl | rfl
        · simp only; rw [if_neg (by simp [h3])]; exact ⟨h1, h2, h3, h4, h5'⟩
        · simp only; rw [if_neg (by simp [h3])]; exact ⟨h1, h2, h3, h4, h5'⟩
  have := forever (reg := reg) P (· ≠ .hostShare) hstep later hn h0
  exact ⟨this.1, this.2.1⟩

/-- C89 fails in the other direction: the program's copy of the host's environment never changes. -/
theorem C89_other_way_fails [DecidableEq V] (reg : List Cell) (s : Sys V) (f : Cell → V) (h : s.hostEnv = some f)
    (l : List (Step V)) : (s.run reg l).hostEnv = some f := by
  refine forever (reg := reg) (fun t => t.hostEnv = some f) (fun _ => True) ?_ l (fun _ _ => trivial) h
  intro t x ht _
  cases x with
  | progTake =>
    show (t.progTake reg).hostEnv = some f
    unfold Sys.progTake
    by_cases hp : t.phase = .ended ∨ t.phase = .failed
    · rw [if_pos hp]; exact ht
    · rw [if_neg hp]
      cases t.stdin with
      | nil => exact ht
      | cons m r =>
        cases m with
        | loop => exact ht
        | info => exact ht
        | env g => simp only [ht]
        | sync => simp only; split <;> exact ht
  | progSet c v => simp only [Sys.step, Sys.progSet]; split <;> exact ht
  | hostTake =>
    show t.hostTake.hostEnv = some f
    unfold Sys.hostTake
    repeat' split
    all_goals exact ht
  | hostErr =>
    show t.hostErr.hostEnv = some f
    unfold Sys.hostErr
    split <;> exact ht
  | hostSet c v => exact ht
  | hostTimeout => exact ht
  | progStart => simp only [Sys.step]; split <;> exact ht
  | progTimeout => simp only [Sys.step]; split <;> exact ht
  | progEnd => simp only [Sys.step]; split <;> exact ht
  | hostShare => simp only [Sys.step]; split <;> exact ht

def HMsg.isEnv : HMsg V → Bool | .env _ => true | _ => false
def PMsg.isNo : PMsg V → Bool | .noEnv => true | _ => false
def Step.isShare : Step V → Bool | .hostShare => true | _ => false

/-- Calls of `share_environment` that raised, or will when the messages under way are handled. -/
def failures (s : Sys V) : Nat := s.raised + s.stdout.countP PMsg.isNo + s.stdin.countP HMsg.isEnv

/-- C89 fails when the environments are exchanged again: once the program has the host's, every
further `share_environment` of the host raises `KeyError` when its reply comes. -/
theorem C89_again_fails [DecidableEq V] (reg : List Cell) (s : Sys V) (h : s.hostEnv ≠ none) (hd : s.stage = .done)
    (l : List (Step V)) : failures (s.run reg l) = failures s + l.countP Step.isShare := by
  induction l using List.reverseRecOn with
  | nil => simp [Sys.run]
  | append_singleton l x ih =>
    rw [run_snoc, List.countP_append, ← Nat.add_assoc, ← ih]
    obtain ⟨f, hf⟩ := Option.ne_none_iff_exists'.mp h
    have h1 := C89_other_way_fails reg s f hf l
    have h2 : (s.run reg l).stage = .done := forever (reg := reg) (fun t => t.stage = .done) (fun _ => True)
      (fun t x ht _ => done_step ht x) l (fun _ _ => trivial) hd
    generalize s.run reg l = t at h1 h2
    cases x with
    | progTake =>
      show failures (t.progTake reg) = _
      unfold Sys.progTake
      by_cases hp : t.phase = .ended ∨ t.phase = .failed
      · rw [if_pos hp]; simp [Step.isShare]
      · rw [if_neg hp]
        cases hi : t.stdin with
        | nil => simp [Step.isShare]
        | cons m r =>
          cases m with
          | loop => simp [failures, hi, HMsg.isEnv, PMsg.isNo, Step.isShare]
          | info => simp [failures, hi, HMsg.isEnv, PMsg.isNo, Step.isShare]
          | env g => simp [failures, hi, h1, HMsg.isEnv, PMsg.isNo, Step.isShare, List.countP_cons]; omega
          | sync => simp only; split <;> simp [failures, hi, HMsg.isEnv, PMsg.isNo, Step.isShare]
    | hostTake =>
      show failures t.hostTake = _
      unfold Sys.hostTake
      cases ho : t.stdout with
      | nil => simp [Step.isShare]
      | cons m r =>
        cases m with
        | loop => simp [failures, ho, h2, HMsg.isEnv, PMsg.isNo, Step.isShare]
        | info => simp [failures, ho, h2, HMsg.isEnv, PMsg.isNo, Step.isShare]
        | env g => simp [failures, ho, PMsg.isNo, Step.isShare]
        | noEnv => simp [failures, ho, PMsg.isNo, Step.isShare, List.countP_cons]; omega
        | sync => simp [failures, ho, HMsg.isEnv, PMsg.isNo, Step.isShare]
    | hostErr =>
      show failures t.hostErr = _
      unfold Sys.hostErr
      split <;> simp [failures, Step.isShare]
    | progSet c v => simp only [Sys.step, Sys.progSet]; split <;> simp [failures, Step.isShare]
    | hostSet c v => simp [Sys.step, failures, Step.isShare]
    | hostTimeout => simp [Sys.step, failures, Step.isShare]
    | progStart => simp only [Sys.step]; split <;> simp [failures, Step.isShare, PMsg.isNo]
    | progTimeout => simp only [Sys.step]; split <;> simp [failures, Step.isShare]
    | progEnd => simp only [Sys.step]; split <;> simp [failures, Step.isShare]
    | hostShare => simp [Sys.step, h2, failures, Step.isShare, HMsg.isEnv]; omega

/-! ### A case -/

def rounds (n : Nat) : List (Step Int) := (List.replicate n [.progTake, .progStart, .hostTake]).flatten

/-- Cells 1 and 2, the second of them the value of two bit-fields; events from before the exchange
still in the pipe. -/
theorem C89_cases :
    ((init (V := Int) (fun _ => 0) (fun _ => 9) [(1, 7)]).run [1, 2, 2] (rounds 10)).phase = .streaming ∧
    ((init (V := Int) (fun _ => 0) (fun _ => 9) [(1, 7)]).run [1, 2, 2] (rounds 10 ++ [.progSet 2 5])).stderr
      = [(1, 7), (1, 0), (2, 0), (2, 0), (2, 5), (2, 5)] ∧
    (((init (V := Int) (fun _ => 0) (fun _ => 9) [(1, 7)]).run [1, 2, 2] (rounds 10 ++ [.progSet 2 5] ++ List.replicate 6 .hostErr)).copy.map
      fun f => (f 1, f 2)) = some (0, 5) ∧
    -- a slow start
    ((init (V := Int) (fun _ => 0) (fun _ => 9) []).run [1] (.hostTimeout :: rounds 20)).phase = .waiting ∧
    -- an exchange too many
    ((init (V := Int) (fun _ => 0) (fun _ => 9) []).run [1] (rounds 10 ++ .hostShare :: rounds 1)).raised = 1 ∧
    (((init (V := Int) (fun _ => 0) (fun _ => 9) []).run [1] (rounds 10 ++ [.hostSet 3 4])).hostEnv.map (· 3)) = some 9 := by
  refine ⟨by decide +kernel, by decide +kernel, by decide +kernel, by decide +kernel, by decide +kernel, by decide +kernel⟩

end Verif.Net.Mirror
