import Verif.Wire.Props

/-!
# Traffic counters (C59)

`ChannelMetrics` of `metrics/channel.py` 17-83 and `ConnectionMetrics` of
`metrics/connection.py` 9-32. Assigning to a primitive's value wraps it to its
width (C03). Simplifications: the callbacks and time stamps of the primitives
are left out; vcorelib's `RateTracker` is any object with the three methods
used here, rates are integers, and the division of the size by 1000 is part of
the tracker's unit.
-/

namespace Verif.Metrics
open Verif.Wire

/-- vcorelib's `RateTracker`, left open. -/
structure Tracker (τ : Type) where
  fresh : τ
  /-- `tracker(time_ns, value)` -/
  add : τ → Int → Int → τ × Int
  /-- `tracker.poll(time_ns)` -/
  poll : τ → Int → τ × Int

variable {τ : Type}

/-- `ChannelMetrics` (`channel.py` 20-33). -/
structure Chan (τ : Type) where
  messages : Int
  messageRate : Int
  messageTracker : τ
  bytes : Int
  kbps : Int
  kbpsTracker : τ

/-- `__init__` (`channel.py` 20-33). -/
def Chan.new (t : Tracker τ) : Chan τ := ⟨0, 0, t.fresh, 0, 0, t.fresh⟩

/-- `increment` (`channel.py` 63-75). -/
def Chan.increment (t : Tracker τ) (c : Chan τ) (count now : Int) : Chan τ :=
  let m := t.add c.messageTracker now 1
  let k := t.add c.kbpsTracker now count
  ⟨wrap .uint32 (c.messages + 1), m.2, m.1, wrap .uint64 (c.bytes + count), k.2 * 8, k.1⟩

/-- `poll` (`channel.py` 55-61). -/
def Chan.poll (t : Tracker τ) (c : Chan τ) (now : Int) : Chan τ :=
  let k := t.poll c.kbpsTracker now
  let m := t.poll c.messageTracker now
  ⟨c.messages, m.2, m.1, c.bytes, k.2, k.1⟩

/-- `reset` (`channel.py` 77-83): the message rate and its tracker stay. -/
def Chan.reset (t : Tracker τ) (c : Chan τ) : Chan τ :=
  ⟨0, c.messageRate, c.messageTracker, 0, 0, t.fresh⟩

/-- `update` (`channel.py` 35-41). -/
def Chan.update (c other : Chan τ) : Chan τ :=
  ⟨wrap .uint32 other.messages, other.messageRate, c.messageTracker, wrap .uint64 other.bytes,
   other.kbps, c.kbpsTracker⟩

/-- What happens to the metrics. -/
inductive Op where
  | increment (count now : Int)
  | poll (now : Int)
  | reset

def Op.run (t : Tracker τ) (c : Chan τ) : Op → Chan τ
  | .increment n now => c.increment t n now
  | .poll now => c.poll t now
  | .reset => c.reset t

theorem wrap_uint32 (v : Int) : wrap .uint32 v = v % 4294967296 := by
  have h1 := (packable_iff .uint32 _).mp (wrap_packable .uint32 v)
  have h2 := wrap_emod .uint32 v
  have e : (2 : Int) ^ IntKind.uint32.bits = 4294967296 := by decide
  have el : Spec.lo .uint32 = 0 := by decide
  have eh : Spec.hi .uint32 = 4294967295 := by decide
  rw [e] at h2
  rw [el, eh] at h1
  omega

theorem wrap_uint64 (v : Int) : wrap .uint64 v = v % 18446744073709551616 := by
  have h1 := (packable_iff .uint64 _).mp (wrap_packable .uint64 v)
  have h2 := wrap_emod .uint64 v
  have e : (2 : Int) ^ IntKind.uint64.bits = 18446744073709551616 := by decide
  have el : Spec.lo .uint64 = 0 := by decide
  have eh : Spec.hi .uint64 = 18446744073709551615 := by decide
  rw [e] at h2
  rw [el, eh] at h1
  omega

/-- The sizes of the messages since the last reset of a history. -/
def sinceReset : List Int → List Op → List Int
  | acc, [] => acc
  | acc, .increment n _ :: ops => sinceReset (acc ++ [n]) ops
  | acc, .poll _ :: ops => sinceReset acc ops
  | _, .reset :: ops => sinceReset [] ops

/-- C59: after every history, the message counter is the number of messages
since the last reset modulo 2^32, and the byte counter the sum of their sizes
modulo 2^64, whatever the rate trackers do. -/
theorem C59_counters (t : Tracker τ) (ops : List Op) :
    (ops.foldl (Op.run t) (Chan.new t)).messages
      = ((sinceReset [] ops).length : Int) % 2 ^ 32 ∧
    (ops.foldl (Op.run t) (Chan.new t)).bytes = (sinceReset [] ops).sum % 2 ^ 64 := by
  have gen : ∀ (ops : List Op) (c : Chan τ) (acc : List Int),
      c.messages = (acc.length : Int) % 4294967296 →
      c.bytes = acc.sum % 18446744073709551616 →
      (ops.foldl (Op.run t) c).messages = ((sinceReset acc ops).length : Int) % 4294967296 ∧
      (ops.foldl (Op.run t) c).bytes = (sinceReset acc ops).sum % 18446744073709551616 := by
    intro ops
    induction ops with
    | nil => intro c acc h1 h2; exact ⟨h1, h2⟩
    | cons o ops ih =>
      intro c acc h1 h2
      cases o with
      | increment n now =>
        apply ih
        · show wrap .uint32 (c.messages + 1) = _
          rw [wrap_uint32, h1, List.length_append, List.length_singleton]
          omega
        · show wrap .uint64 (c.bytes + n) = _
          rw [wrap_uint64, h2, List.sum_append]
          simp only [List.sum_cons, List.sum_nil]
          omega
      | poll now => exact ih _ acc h1 h2
      | reset => exact ih _ [] rfl rfl
  have e32 : (2 : Int) ^ 32 = 4294967296 := by decide
  have e64 : (2 : Int) ^ 64 = 18446744073709551616 := by decide
  rw [e32, e64]
  exact gen ops (Chan.new t) [] rfl rfl

/-- C59: a history without a reset counts everything. -/
theorem C59_without_reset (t : Tracker τ) (sizes : List Int) :
    ((sizes.map (fun n => Op.increment n 0)).foldl (Op.run t) (Chan.new t)).messages
      = (sizes.length : Int) % 2 ^ 32 ∧
    ((sizes.map (fun n => Op.increment n 0)).foldl (Op.run t) (Chan.new t)).bytes
      = sizes.sum % 2 ^ 64 := by
  have h : ∀ acc, sinceReset acc (sizes.map (fun n => Op.increment n 0)) = acc ++ sizes := by
    induction sizes with
    | nil => intro acc; simp [sinceReset]
    | cons n ns ih => intro acc; rw [List.map_cons, sinceReset, ih]; simp
  have := C59_counters t (sizes.map (fun n => Op.increment n 0))
  rw [h, List.nil_append] at this
  exact this

/-- C59: updating from another instance's counters copies them. -/
theorem C59_update (t : Tracker τ) (c : Chan τ) (ops : List Op) :
    (c.update (ops.foldl (Op.run t) (Chan.new t))).messages
      = ((sinceReset [] ops).length : Int) % 2 ^ 32 ∧
    (c.update (ops.foldl (Op.run t) (Chan.new t))).bytes = (sinceReset [] ops).sum % 2 ^ 64 := by
  obtain ⟨h1, h2⟩ := C59_counters t ops
  have e32 : (2 : Int) ^ 32 = 4294967296 := by decide
  have e64 : (2 : Int) ^ 64 = 18446744073709551616 := by decide
  rw [e32] at h1 ⊢
  rw [e64] at h2 ⊢
  constructor
  · show wrap .uint32 (ops.foldl (Op.run t) (Chan.new t)).messages = _
    rw [wrap_uint32, h1]
    omega
  · show wrap .uint64 (ops.foldl (Op.run t) (Chan.new t)).bytes = _
    rw [wrap_uint64, h2]
    omega

/-- C59: a reset does not reset the message rate: it and the history behind it
stay as they were. -/
theorem C59_reset_rate_fails (t : Tracker τ) (c : Chan τ) :
    (c.reset t).messageRate = c.messageRate ∧ (c.reset t).messageTracker = c.messageTracker :=
  ⟨rfl, rfl⟩

/-- C59: `kbps` is measured in bits after an increment and in bytes after a
poll: a poll that finds the rate unchanged divides the value by eight. -/
theorem C59_poll_fails (t : Tracker τ) (c : Chan τ) (count now : Int)
    (ht : ∀ x, (t.poll (t.add x now count).1 now).2 = (t.add x now count).2) :
    (c.increment t count now).kbps = 8 * ((c.increment t count now).poll t now).kbps := by
  show (t.add c.kbpsTracker now count).2 * 8 = 8 * (t.poll (t.add c.kbpsTracker now count).1 now).2
  rw [ht]
  omega

/-- What a tracker hears. -/
inductive Sample where
  | add (now v : Int)
  | poll (now : Int)

/-- A tracker and the rate it last gave. -/
def Tracker.hear (t : Tracker τ) (x : τ × Int) : Sample → τ × Int
  | .add now v => t.add x.1 now v
  | .poll now => t.poll x.1 now

/-- Messages: one each. -/
def ones : List Op → List Sample
  | [] => []
  | .increment _ now :: ops => .add now 1 :: ones ops
  | .poll now :: ops => .poll now :: ones ops
  | .reset :: ops => ones ops

/-- Sizes since the last reset. -/
def sizes : List Sample → List Op → List Sample
  | acc, [] => acc
  | acc, .increment n now :: ops => sizes (acc ++ [.add now n]) ops
  | acc, .poll now :: ops => sizes (acc ++ [.poll now]) ops
  | _, .reset :: ops => sizes [] ops

/-- C59: the rate of messages is what a tracker says that heard of every message of the whole history once; the
rate of bytes is what one says that heard the sizes since the last reset, eight times that after a message. -/
theorem C59_rates (t : Tracker τ) (ops : List Op) (c : Chan τ) (hc : c = ops.foldl (Op.run t) (Chan.new t)) :
    (c.messageTracker, c.messageRate) = (ones ops).foldl t.hear (t.fresh, 0) ∧
    (∃ r, (c.kbpsTracker, r) = (sizes [] ops).foldl t.hear (t.fresh, 0) ∧
      c.kbps = match (sizes [] ops).getLast? with
        | some (.add _ _) => 8 * r
        | _ => r) := by
  have gen : ∀ (ops : List Op) (c : Chan τ) (x : τ × Int) (acc : List Sample),
      (c.messageTracker, c.messageRate) = x →
      (∃ r, (c.kbpsTracker, r) = acc.foldl t.hear (t.fresh, 0) ∧
        c.kbps = match acc.getLast? with
          | some (.add _ _) => 8 * r
          | _ => r) →
      ((ops.foldl (Op.run t) c).messageTracker, (ops.foldl (Op.run t) c).messageRate) = (ones ops).foldl t.hear x ∧
      (∃ r, ((ops.foldl (Op.run t) c).kbpsTracker, r) = (sizes acc ops).foldl t.hear (t.fresh, 0) ∧
        (ops.foldl (Op.run t) c).kbps = match (sizes acc ops).getLast? with
          | some (.add _ _) => 8 * r
          | _ => r) := by
    intro ops
    induction ops with
    | nil => intro c x acc h1 h2; exact ⟨h1, h2⟩
    | cons o ops ih =>
      intro c x acc h1 h2
      obtain ⟨r, h2, -⟩ := h2
      cases o with
      | increment n now =>
        refine ih _ _ (acc ++ [.add now n]) ?_ ⟨(t.add c.kbpsTracker now n).2, ?_, ?_⟩
        · rw [← h1]; rfl
        · rw [List.foldl_append, ← h2]; rfl
        · rw [List.getLast?_concat]
          exact Int.mul_comm _ _
      | poll now =>
        refine ih _ _ (acc ++ [.poll now]) ?_ ⟨(t.poll c.kbpsTracker now).2, ?_, ?_⟩
        · rw [← h1]; rfl
        · rw [List.foldl_append, ← h2]; rfl
        · rw [List.getLast?_concat]; rfl
      | reset => exact ih _ _ [] h1 ⟨0, rfl, rfl⟩
  subst hc
  exact gen ops _ _ [] rfl ⟨0, rfl, rfl⟩

/-- C59: new metrics are all zero; after a reset the counters and the rate of bytes are. -/
theorem C59_zero (t : Tracker τ) (c : Chan τ) :
    ((Chan.new t).messages = 0 ∧ (Chan.new t).messageRate = 0 ∧ (Chan.new t).bytes = 0 ∧ (Chan.new t).kbps = 0) ∧
    ((c.reset t).messages = 0 ∧ (c.reset t).bytes = 0 ∧ (c.reset t).kbps = 0) := ⟨⟨rfl, rfl, rfl, rfl⟩, rfl, rfl, rfl⟩

/-- A tracker that keeps its last value, for the cases below. -/
def lastValue : Tracker Int := ⟨0, fun _ _ v => (v, v), fun x _ => (x, x)⟩

example : ∀ x, (lastValue.poll (lastValue.add x 0 5).1 0).2 = (lastValue.add x 0 5).2 :=
  fun _ => rfl

example : (([.increment 5 0, .reset, .increment 7 1, .poll 2, .increment 8 3] : List Op).foldl
    (Op.run lastValue) (Chan.new lastValue)).bytes = 15 := by decide

end Verif.Metrics
