import Verif.Eval.Model
import Verif.Prim.Props
/-!
C09, C10: waiting for conditions and sampling changes, under every schedule.
-/
namespace Verif.Eval

open Verif.Wire Verif.Prim

set_option linter.unusedSectionVars false

variable {V : Type} [DecidableEq V]

namespace Spec

/-- The sets that change something, as seen by an observer of the stored value: pairs of old
stored value and requested value that differ, with the time of the set. -/
def effective (store : V → V) : V → List (V × Int) → List (V × V × Int)
  | _, [] => []
  | cur, (v, t) :: rest =>
    (if cur ≠ v then [(cur, v, t)] else []) ++ effective store (store v) rest

/-- The stored value after a list of sets. -/
def final (store : V → V) : V → List (V × Int) → V
  | cur, [] => cur
  | _, (v, _) :: rest => final store (store v) rest

end Spec

/-- The cell with one extra, non-one-shot callback `id` at some place. -/
def Extra (c d : Cell V) (id : Nat) : Prop :=
  d.raw = c.raw ∧ d.lastUpdated = c.lastUpdated ∧ d.curr = c.curr + 1 ∧
  d.callbacks.filter (·.1 != id) = c.callbacks ∧ (id, false) ∈ d.callbacks ∧
  (∀ p ∈ c.callbacks, p.1 ≠ id)

theorem ordered_setValue (store : V → V) (c : Cell V) (v : V) (t : Int) (ho : Ordered c) :
    Ordered (c.setValue store v t (fun _ => false)).1 := ordered_step store c (.set v t) ho

/-- Folding over the calls of one set: exactly one is ours. -/
theorem foldl_calls {α : Type} (f : α → Call V → α) (id : Nat) (old new : V)
    (l : List (Nat × Bool)) (hp : l.Pairwise (fun a b => a.1 < b.1)) (hm : ∃ o, (id, o) ∈ l)
    (hf : ∀ a c, c.id ≠ id → f a c = a) (a : α) :
    (l.map (fun p => (⟨p.1, old, new⟩ : Call V))).foldl f a = f a ⟨id, old, new⟩ := by
  induction l generalizing a with
  | nil => obtain ⟨o, h⟩ := hm; cases h
  | cons p l ih =>
    rw [List.pairwise_cons] at hp
    simp only [List.map_cons, List.foldl_cons]
    by_cases hpid : p.1 = id
    · have : ∀ l : List (Nat × Bool), (∀ q ∈ l, q.1 ≠ id) → ∀ a,
          (l.map (fun p => (⟨p.1, old, new⟩ : Call V))).foldl f a = a := by
        intro l hl
        induction l with
        | nil => intro a; rfl
        | cons q l ih2 =>
          intro a
          simp only [List.map_cons, List.foldl_cons]
          rw [hf _ _ (hl q (List.mem_cons_self ..))]
          exact ih2 (fun r hr => hl r (List.mem_cons_of_mem _ hr)) a
      rw [this l (fun q hq => by have := hp.1 q hq; omega), hpid]
    · rw [hf _ _ hpid]
      apply ih hp.2
      obtain ⟨o, ho⟩ := hm
      cases ho with
      | head => exact absurd rfl hpid
      | tail _ ho => exact ⟨o, ho⟩

theorem mem_setValue (store : V → V) (c : Cell V) (v : V) (t : Int) (ho : Ordered c) (id : Nat)
    (hm : (id, false) ∈ c.callbacks) :
    (id, false) ∈ (c.setValue store v t (fun _ => false)).1.callbacks := by
  rw [setValue_ok _ _ _ _ ho]
  dsimp only
  split
  · exact List.mem_filter.2 ⟨hm, rfl⟩
  · exact hm

theorem extra_setValue (store : V → V) (c d : Cell V) (v : V) (t : Int) (id : Nat)
    (hc : Ordered c) (hd : Ordered d) (h : Extra c d id) :
    Extra (c.setValue store v t (fun _ => false)).1 (d.setValue store v t (fun _ => false)).1 id := by
  obtain ⟨h1, h2, h3, h4, h5, h6⟩ := h
  refine ⟨?_, ?_, ?_, ?_, mem_setValue store d v t hd id h5, ?_⟩
  · rw [setValue_raw, setValue_raw]
  · rw [setValue_ok _ _ _ _ hc, setValue_ok _ _ _ _ hd]
  · rw [setValue_ok _ _ _ _ hc, setValue_ok _ _ _ _ hd]; exact h3
  · rw [setValue_ok _ _ _ _ hc, setValue_ok _ _ _ _ hd]
    dsimp only
    rw [h1]
    split
    · rw [List.filter_filter, ← h4, List.filter_filter]
      apply List.filter_congr
      intro p _
      exact Bool.and_comm _ _
    · exact h4
  · intro p hp
    rw [setValue_ok _ _ _ _ hc] at hp
    dsimp only at hp
    split at hp
    · exact h6 p (List.mem_filter.1 hp).1
    · exact h6 p hp

theorem extra_register (c : Cell V) (hc : Ordered c) : Extra c (c.register false).1 c.curr := by
  have hn : ∀ p ∈ c.callbacks, p.1 ≠ c.curr := fun p hp => by have := hc.2 p hp; omega
  refine ⟨rfl, rfl, rfl, ?_, by simp [Cell.register], hn⟩
  simp only [Cell.register, List.filter_append]
  have : c.callbacks.filter (·.1 != c.curr) = c.callbacks := by
    rw [List.filter_eq_self]; intro p hp; simpa using hn p hp
  rw [this]; simp

theorem extra_remove (c d : Cell V) (id : Nat) (h : Extra c d id) :
    (d.remove id).1 = { c with curr := c.curr + 1 } := by
  obtain ⟨h1, h2, h3, h4, -, -⟩ := h
  rw [remove_callbacks]
  obtain ⟨a1, a2, a3, a4⟩ := d
  obtain ⟨b1, b2, b3, b4⟩ := c
  simp only at h1 h2 h3 h4
  simp [h1, h2, h3, h4]

/-- The same sets applied to the primitive when nobody waits. -/
def applySets (store : V → V) (c : Cell V) (changes : List (V × Int)) : Cell V :=
  changes.foldl (fun c x => (c.setValue store x.1 x.2 (fun _ => false)).1) c

theorem waitLoop_spec (store : V → V) (ev : V → V → EvalResult) (id : Nat)
    (changes : List (V × Int)) (c d : Cell V) (r : EvalResult)
    (hc : Ordered c) (hd : Ordered d) (he : Extra c d id) :
    Extra (applySets store c changes) (waitLoop store ev id d r changes).1 id ∧
    (waitLoop store ev id d r changes).2 =
      match (Spec.effective store c.raw changes).getLast? with
      | none => r
      | some (o, n, _) => ev o n := by
  induction changes generalizing c d r with
  | nil => exact ⟨he, rfl⟩
  | cons x rest ih =>
    obtain ⟨v, t⟩ := x
    have he' := extra_setValue store c d v t id hc hd he
    have hc' := ordered_setValue store c v t hc
    have hd' := ordered_setValue store d v t hd
    simp only [waitLoop]
    have hcalls : ((d.setValue store v t (fun _ => false)).2.1.foldl (changeCallback ev id) r) =
        if c.raw ≠ v then ev c.raw v else r := by
      rw [setValue_ok _ _ _ _ hd]
      dsimp only
      rw [he.1]
      split
      · rw [foldl_calls (changeCallback ev id) id c.raw v d.callbacks hd.1 ⟨_, he.2.2.2.2.1⟩]
        · simp [changeCallback]
        · intro a c hne; simp [changeCallback, hne]
      · rfl
    have := ih _ _ ((d.setValue store v t (fun _ => false)).2.1.foldl (changeCallback ev id) r)
      hc' hd' he'
    rw [setValue_raw] at this
    refine ⟨this.1, ?_⟩
    rw [this.2, hcalls]
    simp only [Spec.effective]
    by_cases hv : c.raw = v
    · simp [hv]
    · simp only [ne_eq, hv, not_false_eq_true, if_true, List.singleton_append]
      cases Spec.effective store (store v) rest with
      | nil => rfl
      | cons y ys => rw [List.getLast?_cons_cons]; cases hg : (y :: ys).getLast? with
        | none => simp at hg
        | some z => rfl

/-- **C09** Waiting on a condition: if the evaluator already succeeds on the present value the
answer is success and nothing is touched. Otherwise, under every schedule of sets before the
waiter resumes, the answer is the evaluator's verdict on the last set that changed something,
`timeout` exactly when none did, and the primitive ends as if nobody had waited (the waiter's
callback is gone) apart from one used-up identifier. -/
theorem C09_evaluate (store : V → V) (ev : V → V → EvalResult) (c : Cell V) (hc : Ordered c)
    (changes : List (V × Int)) :
    (ev c.raw c.raw = .success → evaluate store ev c changes = (c, .success)) ∧
    (ev c.raw c.raw ≠ .success →
      (evaluate store ev c changes).2 =
        (match (Spec.effective store c.raw changes).getLast? with
         | none => .timeout
         | some (o, n, _) => ev o n) ∧
      (evaluate store ev c changes).1 =
        { applySets store c changes with curr := (applySets store c changes).curr + 1 }) := by
  constructor
  · intro h; simp [evaluate, h, EvalResult.truthy]
  · intro h
    have ht : (ev c.raw c.raw).truthy = false := by
      cases he : ev c.raw c.raw <;> first | rfl | exact absurd he h
    have hd : Ordered (c.register false).1 := ordered_step store c (.register false) hc
    have := waitLoop_spec store ev c.curr changes c _ .timeout hc hd (extra_register c hc)
    unfold evaluate
    simp only [ht, Bool.false_eq_true, if_false]
    exact ⟨this.2, extra_remove _ _ _ this.1⟩

/-- **C09** For a comparison with a value, success means that the last effective set (or, with
no wait, the present value) stands in the requested relation, with the requested value as the
left operand. -/
theorem C09_compare_success (k : IntKind) (lhs : Int) (op : Operator) (c : Cell Int)
    (hc : Ordered c) (changes : List (Int × Int)) :
    (evaluate (wrap k) (compareLatest lhs op) c changes).2 = .success ↔
      (op.eval lhs c.raw = true ∨
        ∃ o n t, (Spec.effective (wrap k) c.raw changes).getLast? = some (o, n, t) ∧
          op.eval lhs n = true) := by
  obtain ⟨h1, h2⟩ := C09_evaluate (wrap k) (compareLatest lhs op) c hc changes
  by_cases hs : op.eval lhs c.raw = true
  · have : compareLatest lhs op c.raw c.raw = .success := by simp [compareLatest, hs]
    simp [h1 this, hs]
  · have : compareLatest lhs op c.raw c.raw ≠ .success := by simp [compareLatest, hs]
    rw [(h2 this).1]
    cases hg : (Spec.effective (wrap k) c.raw changes).getLast? with
    | none => simp [hs]
    | some x =>
      obtain ⟨o, n, t⟩ := x
      simp only [compareLatest, hs, Bool.false_eq_true, false_or, Option.some.injEq, Prod.mk.injEq]
      constructor
      · intro h
        refine ⟨o, n, t, ⟨rfl, rfl, rfl⟩, ?_⟩
        by_cases hn : op.eval lhs n = true
        · exact hn
        · simp [hn] at h
      · rintro ⟨_, _, _, ⟨rfl, rfl, rfl⟩, h⟩
        simp [h]

/-- **C09** The relation each operator stands for. -/
theorem C09_operators (a b : Int) :
    (Operator.lessThan.eval a b = true ↔ a < b) ∧
    (Operator.lessThanOrEqual.eval a b = true ↔ a ≤ b) ∧
    (Operator.equal.eval a b = true ↔ a = b) ∧
    (Operator.notEqual.eval a b = true ↔ a ≠ b) ∧
    (Operator.greaterThanOrEqual.eval a b = true ↔ b ≤ a) ∧
    (Operator.greaterThan.eval a b = true ↔ b < a) := by
  refine ⟨?_, ?_, ?_, ?_, ?_, ?_⟩ <;> simp [Operator.eval]

example : Ordered (Cell.init (wrap .uint8) 0 0) ∧
    evaluate (wrap .uint8) (compareLatest 5 .equal) (Cell.init (wrap .uint8) 0 0) [(3, 1), (5, 2)] =
      (⟨5, 1, [], 2⟩, .success) ∧
    (evaluate (wrap .uint8) (compareLatest 5 .equal) (Cell.init (wrap .uint8) 0 0) []).2 = .timeout ∧
    (evaluate (wrap .uint8) (compareLatest 5 .lessThan) (Cell.init (wrap .uint8) 0 0) [(6, 1)]).2 =
      .success :=
  ⟨init_ordered _ _ _, by decide, by decide, by decide⟩

/-- **C09** The stronger wish, that a waiter reports success whenever the condition held at some
moment of the wait, is false of the code: a second change before the waiter resumes turns the
answer into `fail`. -/
theorem C09_momentary_success_fails :
    ∃ (c : Cell Int) (changes : List (Int × Int)), Ordered c ∧
      (∃ o t, (o, 5, t) ∈ Spec.effective (wrap .uint8) c.raw changes) ∧
      (evaluate (wrap .uint8) (compareLatest 5 .equal) c changes).2 = .fail :=
  ⟨Cell.init (wrap .uint8) 0 0, [(5, 1), (6, 2)], init_ordered _ _ _, ⟨0, 1, by decide⟩, by decide⟩

/-! ### C10 -/

/-- The sets contained in a schedule. -/
def sets : List (Act V) → List (V × Int)
  | [] => []
  | .change v t :: r => (v, t) :: sets r
  | .get :: r => sets r

/-- The first `count` elements, or all of them when no positive count was given. -/
def Spec.limit {α : Type} (count : Int) (l : List α) : List α :=
  if count > 0 then l.take count.toNat else l

/-- Invariant of the sampling loop: what was yielded plus what is queued is the limited list of
all samples so far, and sampling goes on exactly while the limit is not reached. -/
def SInv (count : Int) (all : List (V × Int)) (s : Sampler V) : Prop :=
  s.yielded ++ s.queue = Spec.limit count all ∧
  (s.keep = false ↔ count > 0 ∧ (all.length : Int) ≥ count) ∧
  (s.keep = true → s.samples = all.length)

theorem sinv_sample (count : Int) (all : List (V × Int)) (s : Sampler V) (x : V × Int)
    (h : SInv count all s) : SInv count (all ++ [x]) (s.sample count x) := by
  obtain ⟨h1, h2, h3⟩ := h
  unfold Sampler.sample
  by_cases hk : s.keep = true
  · have hn : ¬ (count > 0 ∧ (all.length : Int) ≥ count) := by
      rw [← h2]; simp [hk]
    simp only [hk, if_true, Sampler.push]
    refine ⟨?_, ?_, ?_⟩
    · show s.yielded ++ (s.queue ++ [x]) = _
      rw [← List.append_assoc, h1]
      unfold Spec.limit
      by_cases hc : count > 0
      · simp only [hc, if_true]
        rw [List.take_of_length_le (l := all) (by omega),
          List.take_of_length_le (by simp; omega)]
      · simp [hc]
    · rw [h3 hk]
      simp only [List.length_append, List.length_singleton]
      push_cast
      by_cases hc : (all.length : Int) + 1 ≥ count ∧ count > 0
      · simp only [hc, and_self, if_true]
      · simp only [hc, if_false]
        constructor
        · intro e; cases e
        · intro ⟨a, b⟩; exact absurd ⟨b, a⟩ hc
    · intro _; simp [h3 hk]
  · rw [Bool.not_eq_true] at hk
    have hn := h2.1 hk
    simp only [hk, Bool.false_eq_true, if_false]
    refine ⟨?_, ?_, by simp [hk]⟩
    · rw [h1]
      unfold Spec.limit
      simp only [hn.1, if_true]
      rw [List.take_append_of_le_length (by omega)]
    · constructor
      · intro _; refine ⟨hn.1, ?_⟩; simp; omega
      · intro _; exact hk

theorem sampleLoop_spec (store : V → V) (count : Int) (id : Nat) (sched : List (Act V))
    (c d : Cell V) (s : Sampler V) (all : List (V × Int))
    (hc : Ordered c) (hd : Ordered d) (he : Extra c d id) (hs : SInv count all s) :
    Extra (applySets store c (sets sched)) (sampleLoop store count id d s sched).1 id ∧
    SInv count (all ++ (Spec.effective store c.raw (sets sched)).map (fun e => (e.2.1, e.2.2)))
      (sampleLoop store count id d s sched).2 := by
  induction sched generalizing c d s all with
  | nil => exact ⟨he, by simpa [sets, Spec.effective, sampleLoop] using hs⟩
  | cons a rest ih =>
    cases a with
    | get =>
      simp only [sampleLoop, sampleStep, sets]
      by_cases hk : s.keep = true
      · cases hq : s.queue with
        | nil => simpa [hk, hq] using ih c d s all hc hd he hs
        | cons x q =>
          have : SInv count all { s with queue := q, yielded := s.yielded ++ [x] } := by
            refine ⟨?_, hs.2.1, hs.2.2⟩
            have := hs.1
            rw [hq] at this
            simpa using this
          simpa [hk, hq] using ih c d _ all hc hd he this
      · simpa [hk] using ih c d s all hc hd he hs
    | change v t =>
      have he' := extra_setValue store c d v t id hc hd he
      have hc' := ordered_setValue store c v t hc
      have hd' := ordered_setValue store d v t hd
      simp only [sampleLoop, sampleStep, sets]
      have hcalls : ((d.setValue store v t (fun _ => false)).2.1.foldl
          (fun s call => if call.id = id then s.sample count (call.new, t) else s) s) =
          if c.raw ≠ v then s.sample count (v, t) else s := by
        rw [setValue_ok _ _ _ _ hd]
        dsimp only
        rw [he.1]
        split
        · rw [foldl_calls (fun (s : Sampler V) call =>
            if call.id = id then s.sample count (call.new, t) else s) id c.raw v d.callbacks hd.1 ⟨_, he.2.2.2.2.1⟩]
          · simp
          · intro a c hne; simp [hne]
        · rfl
      rw [hcalls]
      by_cases hv : c.raw = v
      · have := ih _ _ s all hc' hd' he' hs
        rw [setValue_raw] at this
        simpa [hv, Spec.effective, applySets] using this
      · have := ih _ _ _ _ hc' hd' he' (sinv_sample count all s (v, t) hs)
        rw [setValue_raw] at this
        simpa [hv, Spec.effective, applySets] using this

/-- **C10** Under every schedule of sets and consumer steps, sampling yields exactly the present
value (if asked for) followed by every effective change in order, cut at the requested count;
nothing is lost, repeated or reordered, and the primitive ends as if nobody had sampled. -/
theorem C10_sample_for (store : V → V) (c : Cell V) (hc : Ordered c) (count : Int)
    (current : Bool) (sched : List (Act V)) :
    (sampleFor store c count current sched).2 =
      Spec.limit count ((if current then [(c.raw, c.lastUpdated)] else []) ++
        (Spec.effective store c.raw (sets sched)).map (fun e => (e.2.1, e.2.2))) ∧
    (sampleFor store c count current sched).1 =
      { applySets store c (sets sched) with curr := (applySets store c (sets sched)).curr + 1 } := by
  have h0 : SInv count [] ({ queue := [], keep := true, samples := 0, yielded := [] } : Sampler V) := by
    refine ⟨by simp [Spec.limit], ?_, by simp⟩
    constructor
    · intro h; cases h
    · intro ⟨a, b⟩; simp at b; omega
  have hi : SInv count (if current then [(c.raw, c.lastUpdated)] else []) (sampleInit c count current) := by
    unfold sampleInit
    cases current with
    | false => simpa using h0
    | true =>
      have := sinv_sample count [] _ (c.raw, c.lastUpdated) h0
      simpa [Sampler.sample] using this
  have hd : Ordered (c.register false).1 := ordered_step store c (.register false) hc
  have := sampleLoop_spec store count c.curr sched c _ _ _ hc hd (extra_register c hc) hi
  exact ⟨this.2.1, extra_remove _ _ _ this.1⟩

/-- **C10** At every intermediate moment the consumer has seen a prefix of that list. -/
theorem C10_prefix (store : V → V) (c : Cell V) (count : Int)
    (current : Bool) (sched : List (Act V)) :
    (sampleLoop store count c.curr (c.register false).1 (sampleInit c count current) sched).2.yielded
      <+: (sampleFor store c count current sched).2 := by
  unfold sampleFor
  exact List.prefix_append _ _

example : (sampleFor (wrap .uint8) (Cell.init (wrap .uint8) 0 0) 3 true
      [.change 4 1, .get, .get, .change 4 2, .change 300 3, .change 9 4]).2 =
    [(0, 0), (4, 1), (300, 3)] ∧
    (sampleFor (wrap .uint8) (Cell.init (wrap .uint8) 0 0) 0 false
      [.change 4 1, .get, .get, .change 4 2, .change 7 3, .change 9 4]).2 =
    [(4, 1), (7, 3), (9, 4)] := by decide

end Verif.Eval
