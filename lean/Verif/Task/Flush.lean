import Verif.Base
/-!
C121: the telemetry task: `telemetry/sample.py` 63–107 (`init`, `dispatch`), with `capture` of
`net/arbiter/struct/__init__.py` 175–185 and `primitives/serializable/framer.py` 57–73, the counter of
`metrics/task.py` 50–73, the pause of `task/basic/periodic.py` 158–169 and the queue of
`mixins/async_command.py` 45–50.

Samples are abstract (their bytes: C26, C27), a datagram is a list of samples. The connection is up. Of commands
only those that set `flush_count` and `paused`; the values they set are in range.
-/
namespace Verif.Flush
open Verif

variable {α : Type}

/-- `SerializableFramer`, framer.py 15–49: `length` samples make a frame. -/
structure Framer (α : Type) where
  length : Nat
  elements : Nat
  raw : List α

/-- `capture`, framer.py 57–73. -/
def Framer.capture (f : Framer α) (sample : Option α) (flush : Bool) : Framer α × Option (List α) :=
  let f := match sample with
    | some x => { f with raw := f.raw ++ [x], elements := f.elements + 1 }
    | none => f
  if f.raw ≠ [] ∧ (flush = true ∨ f.elements = f.length) then
    ({ f with elements := 0, raw := [] }, some f.raw)
  else (f, none)

/-- The task with its transmitting connection. -/
structure Task (α : Type) where
  framer : Framer α
  /-- datagrams sent, in order -/
  sent : List (List α)
  /-- `metrics.dispatches`, a `Uint32` -/
  count : Nat
  /-- `flush_count`, a `Uint16` -/
  flushCount : Nat
  paused : Bool
  /-- what escaped `dispatch` and ended the task -/
  dead : Option PyErr
  /-- `outgoing_commands` -/
  queue : Nat

/-- `UdpStructTransceiver.capture`, struct/__init__.py 175–185. -/
def Task.capture (t : Task α) (sample : Option α) (flush : Bool) : Task α :=
  match t.framer.capture sample flush with
  | (f, some d) => { t with framer := f, sent := t.sent ++ [d] }
  | (f, none) => { t with framer := f }

/-- `SampleTelemetryTask.dispatch`, sample.py 99–107, in a round of the task, periodic.py 158–169, and the count,
metrics/task.py 68: nothing is counted if it raises. -/
def Task.dispatch (t : Task α) (x : α) : Task α :=
  if t.dead.isSome || t.paused then t
  else
    let t := t.capture (some x) false
    if t.flushCount = 0 then { t with dead := some .zeroDivision }
    else
      let t := if t.count % t.flushCount = 0 then t.capture none true else t
      { t with count := (t.count + 1) % 2 ^ 32 }

inductive Op (α : Type) where
  /-- a round of the task; the struct polled gives this sample -/
  | round (x : α)
  /-- `set flush_count n` -/
  | setFlush (n : Nat)
  /-- `set paused b` -/
  | setPaused (b : Bool)

/-- Commands run hooks, which queue them (async_command.py 45–50). -/
def Task.step (t : Task α) : Op α → Task α
  | .round x => t.dispatch x
  | .setFlush n => { t with flushCount := n, queue := t.queue + 1 }
  | .setPaused b => { t with paused := b, queue := t.queue + 1 }

def Task.run (t : Task α) (ops : List (Op α)) : Task α := ops.foldl Task.step t

/-- A new task, sample.py 71–97: ten samples to a datagram at first. -/
def Task.new (length : Nat) : Task α := ⟨⟨length, 0, []⟩, [], 0, 10, false, none, 0⟩

/-! ### Theorems -/

/-- The samples polled: those of rounds that were neither paused nor after the end. -/
def polled (t : Task α) : List (Op α) → List α
  | [] => []
  | op :: ops =>
    (match op with
      | .round x => if t.dead.isSome || t.paused then [] else [x]
      | _ => []) ++ polled (t.step op) ops

/-- What always holds of the framer. -/
def Ok (t : Task α) : Prop := 0 < t.framer.length ∧ t.framer.elements = t.framer.raw.length ∧ t.framer.raw.length < t.framer.length

/-- What a capture does. -/
theorem capture_spec (t : Task α) (h : Ok t) (s : Option α) (flush : Bool) :
    Ok (t.capture s flush) ∧ (t.capture s flush).framer.length = t.framer.length ∧
    (t.capture s flush).sent.flatten ++ (t.capture s flush).framer.raw = t.sent.flatten ++ t.framer.raw ++ s.toList ∧
    (t.capture s flush).count = t.count ∧ (t.capture s flush).flushCount = t.flushCount ∧
    (t.capture s flush).paused = t.paused ∧ (t.capture s flush).dead = t.dead ∧ (t.capture s flush).queue = t.queue ∧
    (flush = true → (t.capture s flush).framer.raw = []) ∧
    ((t.capture s flush).framer.raw = [] ∨ (t.capture s flush).framer.raw = t.framer.raw ++ s.toList) ∧
    ((t.capture s flush).sent = t.sent ∨ ∃ d, (t.capture s flush).sent = t.sent ++ [d] ∧ d = t.framer.raw ++ s.toList ∧
      d ≠ [] ∧ d.length ≤ t.framer.length ∧ (flush = false → d.length = t.framer.length)) := by
  obtain ⟨h1, h2, h3⟩ := h
  unfold Ok Task.capture Framer.capture
  cases s with
  | none =>
    dsimp only
    by_cases hc : t.framer.raw ≠ [] ∧ (flush = true ∨ t.framer.elements = t.framer.length)
    · rw [if_pos hc]
      dsimp only
      have : flush = true := by rcases hc.2 with h | h; exact h; omega
      refine ⟨⟨h1, rfl, h1⟩, rfl, by simp, rfl, rfl, rfl, rfl, rfl, fun _ => rfl, .inl rfl, .inr ⟨_, rfl, by simp, hc.1, by omega, ?_⟩⟩
      intro h; rw [this] at h; cases h
    · rw [if_neg hc]
      dsimp only
      refine ⟨⟨h1, h2, h3⟩, rfl, by simp, rfl, rfl, rfl, rfl, rfl, ?_, .inr (by simp), .inl rfl⟩
      intro hf
      exact Classical.byContradiction fun hn => hc ⟨hn, .inl hf⟩
  | some x =>
    dsimp only
    by_cases hc : t.framer.raw ++ [x] ≠ [] ∧ (flush = true ∨ t.framer.elements + 1 = t.framer.length)
    · rw [if_pos hc]
      dsimp only
      refine ⟨⟨h1, rfl, h1⟩, rfl, by simp, rfl, rfl, rfl, rfl, rfl, fun _ => rfl, .inl rfl,
        .inr ⟨_, rfl, by simp, hc.1, by simp; omega, ?_⟩⟩
      intro h
      rw [h] at hc
      rcases hc.2 with h' | h'
      · cases h'
      · simp; omega
    · rw [if_neg hc]
      dsimp only
      have hn : ¬ (flush = true ∨ t.framer.elements + 1 = t.framer.length) := fun h => hc ⟨by simp, h⟩
      refine ⟨⟨h1, by simp [h2], ?_⟩, rfl, by simp, rfl, rfl, rfl, rfl, rfl, ?_, .inr (by simp), .inl rfl⟩
      · simp
        have := fun h => hn (.inr h)
        omega
      · intro hf; exact absurd (.inl hf) hn

/-- The three parts of a round. -/
theorem dispatch_eq (t : Task α) (x : α) (hd : t.dead = none) (hp : t.paused = false) :
    t.dispatch x = if t.flushCount = 0 then { t.capture (some x) false with dead := some .zeroDivision }
      else if t.count % t.flushCount = 0 then
        { (t.capture (some x) false).capture none true with count := (t.count + 1) % 2 ^ 32 }
      else { t.capture (some x) false with count := (t.count + 1) % 2 ^ 32 } := by
  have e : (t.capture (some x) false).flushCount = t.flushCount ∧ (t.capture (some x) false).count = t.count ∧
      ((t.capture (some x) false).capture none true).count = t.count := by
    have hk : ∀ (t : Task α) s f, (t.capture s f).flushCount = t.flushCount ∧ (t.capture s f).count = t.count := by
      intro t s f
      unfold Task.capture
      split <;> exact ⟨rfl, rfl⟩
    exact ⟨(hk t _ _).1, (hk t _ _).2, ((hk _ _ _).2).trans (hk t _ _).2⟩
  unfold Task.dispatch
  rw [hd, hp]
  simp only [Option.isSome_none, Bool.or_self, Bool.false_eq_true, if_false]
  rw [e.1, e.2.1]
  by_cases h0 : t.flushCount = 0
  · rw [if_pos h0, if_pos h0]
  · rw [if_neg h0, if_neg h0]
    by_cases h1 : t.count % t.flushCount = 0
    · simp only [if_pos h1, e.2.2]
    · simp only [if_neg h1, e.2.1, e.1]

/-- What always holds of a task, by its first state. -/
structure Inv (t0 t : Task α) (xs : List α) : Prop where
  ok : Ok t
  same : t.framer.length = t0.framer.length
  all : t.sent.flatten ++ t.framer.raw = xs
  sizes : ∀ d ∈ t.sent, d ≠ [] ∧ d.length ≤ t.framer.length

theorem inv_capture {t0 t : Task α} {xs : List α} (h : Inv t0 t xs) (s : Option α) (flush : Bool) :
    Inv t0 (t.capture s flush) (xs ++ s.toList) := by
  obtain ⟨a1, a2, a3, -, -, -, -, -, -, -, a4⟩ := capture_spec t h.ok s flush
  refine ⟨a1, a2.trans h.same, by rw [a3, h.all], ?_⟩
  intro d hd
  rw [a2]
  rcases a4 with a4 | ⟨d', a4, -, a5, a6, -⟩
  · rw [a4] at hd; exact h.sizes d hd
  · rw [a4] at hd
    rcases List.mem_append.mp hd with hd | hd
    · exact h.sizes d hd
    · rw [List.mem_singleton.mp hd]; exact ⟨a5, a6⟩

theorem inv_step {t0 t : Task α} {xs : List α} (h : Inv t0 t xs) (op : Op α) :
    Inv t0 (t.step op) (xs ++ match op with
      | .round x => if t.dead.isSome || t.paused then [] else [x]
      | _ => []) := by
  cases op with
  | setFlush n => rw [List.append_nil]; exact ⟨h.ok, h.same, h.all, h.sizes⟩
  | setPaused b => rw [List.append_nil]; exact ⟨h.ok, h.same, h.all, h.sizes⟩
  | round x =>
    show Inv t0 (t.dispatch x) _
    dsimp only
    by_cases hc : (t.dead.isSome || t.paused) = true
    · rw [if_pos hc, List.append_nil]
      unfold Task.dispatch
      rw [if_pos hc]
      exact h
    · rw [if_neg hc]
      rw [Bool.or_eq_true, not_or] at hc
      have hd : t.dead = none := by cases hd : t.dead with
        | none => rfl
        | some e => rw [hd] at hc; exact absurd rfl hc.1
      have hp : t.paused = false := by cases hp : t.paused with
        | false => rfl
        | true => exact absurd hp hc.2
      have i1 := inv_capture h (some x) false
      have i2 := inv_capture i1 none true
      simp only [Option.toList_some, Option.toList_none, List.append_nil] at i1 i2
      rw [dispatch_eq t x hd hp]
      split
      · exact ⟨i1.ok, i1.same, i1.all, i1.sizes⟩
      · split
        · exact ⟨i2.ok, i2.same, i2.all, i2.sizes⟩
        · exact ⟨i1.ok, i1.same, i1.all, i1.sizes⟩

theorem inv_run {t0 t : Task α} {xs : List α} (h : Inv t0 t xs) (ops : List (Op α)) :
    Inv t0 (t.run ops) (xs ++ polled t ops) := by
  induction ops generalizing t xs with
  | nil => rw [polled, List.append_nil]; exact h
  | cons op ops ih =>
    have := ih (inv_step h op)
    rw [List.append_assoc] at this
    exact this

theorem inv_new (L : Nat) (hL : 0 < L) : Inv (Task.new L : Task α) (Task.new L) [] :=
  ⟨⟨hL, rfl, hL⟩, rfl, rfl, fun _ hd => absurd hd List.not_mem_nil⟩

/-- C121: the samples polled are sent in order, each once, none twice, in datagrams of one to `L` samples; fewer than
`L` wait. So every sample is sent at the latest by the `L`-th round that polls after it, whatever commands come. -/
theorem C121_order (L : Nat) (hL : 0 < L) (ops : List (Op α)) :
    ∃ wait, ((Task.new L).run ops).sent.flatten ++ wait = polled (Task.new L) ops ∧ wait.length < L ∧
      ∀ d ∈ ((Task.new L).run ops).sent, 1 ≤ d.length ∧ d.length ≤ L := by
  have h := inv_run (inv_new (α := α) L hL) ops
  refine ⟨((Task.new L).run ops).framer.raw, h.all, ?_, ?_⟩
  · have := h.ok.2.2
    rw [h.same] at this
    exact this
  · intro d hd
    obtain ⟨h1, h2⟩ := h.sizes d hd
    rw [h.same] at h2
    exact ⟨List.length_pos_iff.mpr h1, h2⟩

/-- Histories in which `flush_count` is not set. -/
def Constant (ops : List (Op α)) : Prop := ∀ op ∈ ops, ∀ n, op ≠ .setFlush n

/-- Waiting samples, by the counter. -/
structure Wait (n : Nat) (t : Task α) : Prop where
  ok : Ok t
  flush : t.flushCount = n
  small : t.count < 2 ^ 32
  wait : t.framer.raw.length ≤ (t.count + (2 ^ 32 - 1)) % 2 ^ 32 % n

theorem wait_step (n : Nat) (hn : 0 < n) (t : Task α) (h : Wait n t) (op : Op α) (hc : ∀ n, op ≠ .setFlush n) :
    Wait n (t.step op) := by
  cases op with
  | setFlush m => exact absurd rfl (hc m)
  | setPaused b => exact ⟨h.ok, h.flush, h.small, h.wait⟩
  | round x =>
    show Wait n (t.dispatch x)
    by_cases hd : (t.dead.isSome || t.paused) = true
    · unfold Task.dispatch
      rw [if_pos hd]
      exact h
    · rw [Bool.or_eq_true, not_or] at hd
      have hd1 : t.dead = none := by cases hd1 : t.dead with
        | none => rfl
        | some e => rw [hd1] at hd; exact absurd rfl hd.1
      have hp : t.paused = false := by cases hp : t.paused with
        | false => rfl
        | true => exact absurd hp hd.2
      have hlast : ((t.count + 1) % 2 ^ 32 + (2 ^ 32 - 1)) % 2 ^ 32 = t.count := by
        have := h.small
        omega
      rw [dispatch_eq t x hd1 hp, h.flush, if_neg (by omega)]
      obtain ⟨a1, a2, a3, a4, a5, a6, a7, a8, a9, a10, -⟩ := capture_spec t h.ok (some x) false
      obtain ⟨b1, b2, b3, b4, b5, b6, b7, b8, b9, b10, -⟩ := capture_spec (t.capture (some x) false) a1 none true
      split
      · refine ⟨b1, by show _ = n; rw [b5, a5, h.flush], Nat.mod_lt _ (by decide), ?_⟩
        show ((t.capture (some x) false).capture none true).framer.raw.length ≤ _
        rw [b9 rfl]
        exact Nat.zero_le _
      · rename_i hm
        refine ⟨a1, by show _ = n; rw [a5, h.flush], Nat.mod_lt _ (by decide), ?_⟩
        show (t.capture (some x) false).framer.raw.length ≤ ((t.count + 1) % 2 ^ 32 + (2 ^ 32 - 1)) % 2 ^ 32 % n
        rw [hlast]
        have hw := h.wait
        have h0 : t.count ≠ 0 := by intro h0; rw [h0] at hm; exact hm (Nat.zero_mod n)
        have hprev : (t.count + (2 ^ 32 - 1)) % 2 ^ 32 = t.count - 1 := by
          have := h.small
          omega
        rw [hprev] at hw
        have hs : (t.count - 1) % n + 1 = t.count % n := by
          have hdiv := Nat.div_add_mod (t.count - 1) n
          have hlt := Nat.mod_lt (t.count - 1) hn
          have e : t.count = n * ((t.count - 1) / n) + ((t.count - 1) % n + 1) := by omega
          by_cases hl : (t.count - 1) % n + 1 < n
          · rw [e, Nat.mul_add_mod, Nat.mod_eq_of_lt hl, ← e]
          · exfalso
            have hq : (t.count - 1) % n + 1 = n := by omega
            rw [hq] at e
            apply hm
            rw [e, Nat.mul_add_mod, Nat.mod_self]
        rcases a10 with a10 | a10
        · rw [a10]; exact Nat.zero_le _
        · rw [a10]
          simp
          omega

/-- C121: while `flush_count` is left at `n`, fewer than `n` samples wait, also when the counter wraps: every sample
is sent at the latest by the `n`-th round after it. -/
theorem C121_flush (L : Nat) (hL : 0 < L) (n : Nat) (hn : 0 < n) (ops : List (Op α)) (h : Constant ops) :
    let t := ({ Task.new L with flushCount := n } : Task α).run ops
    ∃ wait, t.sent.flatten ++ wait = polled ({ Task.new L with flushCount := n } : Task α) ops ∧ wait.length < n := by
  intro t
  have hw : Wait n ({ Task.new L with flushCount := n } : Task α) := ⟨⟨hL, rfl, hL⟩, rfl, by show 0 < 2 ^ 32; decide, Nat.zero_le _⟩
  have key : ∀ (ops : List (Op α)) (t : Task α), Constant ops → Wait n t → Wait n (t.run ops) := by
    intro ops
    induction ops with
    | nil => intro t _ h; exact h
    | cons op ops ih =>
      intro t hc h
      exact ih _ (fun o ho => hc o (List.mem_cons_of_mem _ ho)) (wait_step n hn t h op (hc op List.mem_cons_self))
  have h1 := key ops _ h hw
  have h2 := inv_run (⟨⟨hL, rfl, hL⟩, rfl, rfl, fun _ hd => absurd hd List.not_mem_nil⟩ :
    Inv ({ Task.new L with flushCount := n } : Task α) { Task.new L with flushCount := n } []) ops
  refine ⟨t.framer.raw, h2.all, ?_⟩
  exact Nat.lt_of_le_of_lt h1.wait (Nat.mod_lt _ hn)

/-- Rounds only. -/
def rounds (xs : List α) : List (Op α) := xs.map .round

/-- C121: undisturbed, the first sample goes alone, then `n` at a time; after `m` rounds `(m - 1) % n` wait. -/
theorem C121_exact (L n : Nat) (hn : 0 < n) (hL : n < L) (xs : List α) (hm : xs.length < 2 ^ 32) (hne : xs ≠ []) :
    let t := ({ Task.new L with flushCount := n } : Task α).run (rounds xs)
    t.sent.map List.length = 1 :: List.replicate ((xs.length - 1) / n) n ∧
    t.framer.raw.length = (xs.length - 1) % n ∧ t.dead = none ∧ t.count = xs.length := by
  have key : ∀ (m : Nat) (xs : List α), xs.length = m + 1 → xs.length < 2 ^ 32 →
      let t := ({ Task.new L with flushCount := n } : Task α).run (rounds xs)
      Ok t ∧ t.framer.length = L ∧ t.flushCount = n ∧ t.paused = false ∧
      t.sent.map List.length = 1 :: List.replicate (m / n) n ∧
      t.framer.raw.length = m % n ∧ t.dead = none ∧ t.count = m + 1 := by
    intro m
    induction m with
    | zero =>
      intro xs hx _
      obtain ⟨x, rfl⟩ : ∃ x, xs = [x] := by
        match xs, hx with
        | [x], _ => exact ⟨x, rfl⟩
      intro t
      have e : t = ({ Task.new L with flushCount := n } : Task α).dispatch x := rfl
      rw [e, dispatch_eq _ x rfl rfl]
      have hL1 : ¬ (0 + 1 = L) := by omega
      have e1 : ({ Task.new L with flushCount := n } : Task α).capture (some x) false =
          ⟨⟨L, 1, [x]⟩, [], 0, n, false, none, 0⟩ := by
        unfold Task.capture Framer.capture Task.new
        have hL2 : ¬ (1 = L) := by omega
        simp [hL2]
      rw [e1]
      have e2 : (⟨⟨L, 1, [x]⟩, [], 0, n, false, none, 0⟩ : Task α).capture none true =
          ⟨⟨L, 0, []⟩, [[x]], 0, n, false, none, 0⟩ := by
        unfold Task.capture Framer.capture
        simp
      rw [e2]
      have h0 : ({ Task.new L with flushCount := n } : Task α).flushCount = n := rfl
      rw [h0, if_neg (by omega)]
      have h1 : ({ Task.new L with flushCount := n } : Task α).count = 0 := rfl
      rw [h1, Nat.zero_mod, if_pos rfl]
      refine ⟨⟨by show 0 < L; omega, rfl, by show 0 < L; omega⟩, rfl, rfl, rfl, ?_, ?_, rfl, rfl⟩
      · show [1] = _
        rw [Nat.zero_div]; rfl
      · exact (Nat.zero_mod n).symm
    | succ m ih =>
      intro xs hx hm
      obtain ⟨ys, y, rfl⟩ : ∃ ys y, xs = ys ++ [y] := by
        refine ⟨xs.dropLast, xs.getLast (by intro h; rw [h] at hx; cases hx), ?_⟩
        exact (List.dropLast_concat_getLast _).symm
      have hy : ys.length = m + 1 := by simpa using hx
      have hm' : m + 2 < 2 ^ 32 := by simp [hy] at hm; omega
      obtain ⟨i1, i2, i3, i4, i5, i6, i7, i8⟩ := ih ys hy (by omega)
      intro t
      have e : t = (({ Task.new L with flushCount := n } : Task α).run (rounds ys)).dispatch y := by
        show Task.run _ _ = _
        unfold Task.run rounds
        rw [List.map_append, List.foldl_append]
        rfl
      rw [e]
      clear e
      generalize ({ Task.new L with flushCount := n } : Task α).run (rounds ys) = s at i1 i2 i3 i4 i5 i6 i7 i8
      rw [dispatch_eq s y i7 i4, i3, i8, if_neg (by omega)]
      obtain ⟨a1, a2, a3, a4, a5, a6, a7, a8, a9, a10, a11⟩ := capture_spec s i1 (some y) false
      have hmod : m % n < n := Nat.mod_lt _ hn
      have hsent : (s.capture (some y) false).sent = s.sent := by
        rcases a11 with h | ⟨d, -, h1, -, -, h2⟩
        · exact h
        · exfalso
          have := h2 rfl
          rw [h1, i2] at this
          simp at this
          omega
      have hraw : (s.capture (some y) false).framer.raw.length = m % n + 1 := by
        rw [hsent] at a3
        have := congrArg List.length a3
        simp at this
        omega
      have hdm := Nat.div_add_mod m n
      by_cases hz : (m + 1) % n = 0
      · rw [if_pos hz]
        obtain ⟨b1, b2, b3, b4, b5, b6, b7, b8, b9, b10, b11⟩ := capture_spec _ a1 none true
        have hk : m % n + 1 = n := by
          by_cases hl : m % n + 1 < n
          · exfalso
            have e : m + 1 = n * (m / n) + (m % n + 1) := by omega
            rw [e, Nat.mul_add_mod, Nat.mod_eq_of_lt hl] at hz
            omega
          · omega
        have hdiv : (m + 1) / n = m / n + 1 := by
          have e : m + 1 = n * (m / n + 1) := by rw [Nat.mul_add]; omega
          rw [e, Nat.mul_div_cancel_left _ hn]
        refine ⟨b1, b2.trans (a2.trans i2), b5.trans (a5.trans i3), b6.trans (a6.trans i4), ?_, ?_, b7.trans (a7.trans i7), ?_⟩
        · show ((s.capture (some y) false).capture none true).sent.map List.length = _
          rcases b11 with h | ⟨d, h, h1, -, -, -⟩
          · exfalso
            rw [h, b9 rfl] at b3
            have := congrArg List.length b3
            simp only [List.length_append, List.length_nil, Option.toList_none] at this
            omega
          · rw [h, hsent, List.map_append, i5, hdiv, List.replicate_succ', h1]
            simp [hraw, hk]
        · show ((s.capture (some y) false).capture none true).framer.raw.length = _
          rw [b9 rfl, hz]; rfl
        · show (m + 1 + 1) % 2 ^ 32 = _
          exact Nat.mod_eq_of_lt hm'
      · rw [if_neg hz]
        have hl : m % n + 1 < n := by
          by_cases hl : m % n + 1 < n
          · exact hl
          · exfalso
            have hk : m % n + 1 = n := by omega
            apply hz
            have e : m + 1 = n * (m / n) + n := by omega
            rw [e, Nat.mul_add_mod, Nat.mod_self]
        have e : m + 1 = n * (m / n) + (m % n + 1) := by omega
        refine ⟨a1, a2.trans i2, a5.trans i3, a6.trans i4, ?_, ?_, a7.trans i7, ?_⟩
        · show (s.capture (some y) false).sent.map List.length = _
          rw [hsent, i5]
          have : (m + 1) / n = m / n := by
            have e' : (m + 1) / n = _ / n := congrArg (fun k => k / n) e
            rw [e', Nat.mul_add_div hn, Nat.div_eq_of_lt hl, Nat.add_zero]
          rw [this]
        · show (s.capture (some y) false).framer.raw.length = _
          have e' : (m + 1) % n = _ % n := congrArg (fun k => k % n) e
          rw [hraw, e', Nat.mul_add_mod, Nat.mod_eq_of_lt hl]
        · show (m + 1 + 1) % 2 ^ 32 = _
          exact Nat.mod_eq_of_lt hm'
  intro t
  obtain ⟨m, hm1⟩ : ∃ m, xs.length = m + 1 := by
    cases xs with
    | nil => exact absurd rfl hne
    | cons x xs => exact ⟨xs.length, rfl⟩
  obtain ⟨-, -, -, -, k1, k2, k3, k4⟩ := key m xs hm1 hm
  rw [hm1]
  exact ⟨k1, k2, k3, k4⟩

/-- C121: once `flush_count` is set to 0 the next round ends the task: nothing is ever sent again, whatever is set
afterwards. -/
theorem C121_zero_fails (t : Task α) (hd : t.dead = none) (hp : t.paused = false) (x : α) (ops : List (Op α)) :
    let t0 := t.step (.setFlush 0)
    (t0.step (.round x)).dead = some .zeroDivision ∧
    ((t0.step (.round x)).run ops).sent = (t0.step (.round x)).sent ∧
    ((t0.step (.round x)).run ops).dead = some .zeroDivision ∧ polled (t0.step (.round x)) ops = [] := by
  intro t0
  have e : (t0.step (.round x)).dead = some .zeroDivision := by
    show (t0.dispatch x).dead = _
    rw [dispatch_eq t0 x hd hp]
    rfl
  refine ⟨e, ?_⟩
  generalize t0.step (.round x) = s at e
  have key : ∀ (ops : List (Op α)) (s : Task α), s.dead = some .zeroDivision →
      (s.run ops).sent = s.sent ∧ (s.run ops).dead = some .zeroDivision ∧ polled s ops = [] := by
    intro ops
    induction ops with
    | nil => intro s h; exact ⟨rfl, h, rfl⟩
    | cons op ops ih =>
      intro s h
      cases op with
      | round x =>
        have : s.step (.round x) = s := by
          show s.dispatch x = s
          unfold Task.dispatch
          rw [h]
          rfl
        have hr : s.run (.round x :: ops) = s.run ops := by
          show (s.step (.round x)).run ops = _
          rw [this]
        rw [hr]
        refine ⟨(ih s h).1, (ih s h).2.1, ?_⟩
        show (if s.dead.isSome || s.paused then [] else [x]) ++ polled (s.step (.round x)) ops = []
        rw [this, h, (ih s h).2.2]
        rfl
      | setFlush n => exact ih _ h
      | setPaused b => exact ih _ h
  exact key ops s e

/-- C121: commands are queued and never taken from the queue. -/
theorem C121_queue_fails (t : Task α) (ops : List (Op α)) :
    (t.run ops).queue = t.queue + (ops.filter fun op => match op with | .round _ => false | _ => true).length := by
  induction ops generalizing t with
  | nil => rfl
  | cons op ops ih =>
    show ((t.step op).run ops).queue = _
    rw [ih]
    cases op with
    | round x =>
      have : (t.step (.round x)).queue = t.queue := by
        have hq : ∀ (t : Task α) s f, (t.capture s f).queue = t.queue := by
          intro t s f
          unfold Task.capture
          split <;> rfl
        show (t.dispatch x).queue = _
        unfold Task.dispatch
        dsimp only
        (repeat' split) <;> simp [hq]
      rw [this]
      rfl
    | setFlush n =>
      show t.queue + 1 + _ = t.queue + (_ + 1)
      omega
    | setPaused b =>
      show t.queue + 1 + _ = t.queue + (_ + 1)
      omega

/-! ### Cases -/

theorem C121_cases :
    (((Task.new 4 : Task Nat).step (.setFlush 3)).run (rounds [1, 2, 3, 4, 5, 6])).sent = [[1], [2, 3, 4]] ∧
    ((Task.new 4 : Task Nat).run (rounds [1, 2, 3, 4, 5, 6, 7])).sent = [[1], [2, 3, 4, 5]] ∧
    ((Task.new 4 : Task Nat).run (rounds [1, 2] ++ [.setFlush 0, .round 3, .setFlush 1, .round 4])).sent = [[1]] ∧
    ((Task.new 4 : Task Nat).run [.round 1, .setPaused true, .round 2, .setPaused false, .round 3, .setFlush 1, .round 4]).sent =
      [[1], [3, 4]] := by
  decide +kernel

end Verif.Flush
