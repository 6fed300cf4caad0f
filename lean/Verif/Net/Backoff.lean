import Verif.Base

/-!
# Back-off and restarts (C50, C51)

`net/backoff.py` 9-46 and `Connection._handle_restart` of
`net/connection.py` 236-256.

Simplifications: waiting times are integers (a unit of time) instead of
floating-point seconds. Only the order and the value of the waits matter here.
The number of tries is a natural number: a negative `max_tries` gives up at
once, as zero does.
-/

namespace Verif.Net

/-- `ExponentialBackoff` (`backoff.py` 9-32). -/
structure Backoff where
  interval : Int
  maxSleep : Int
  maxTries : Nat
  wait : Int
  attempt : Nat
deriving DecidableEq

/-- `__init__` and `reset` (`backoff.py` 15-32). -/
def Backoff.new (interval maxSleep : Int) (maxTries : Nat) : Backoff :=
  ⟨interval, maxSleep, maxTries, 0, 0⟩

/-- `give_up` (`backoff.py` 34-39). -/
def Backoff.giveUp (b : Backoff) : Bool := b.attempt ≥ b.maxTries

/-- What `sleep` does once the wait is over (`backoff.py` 41-46). In python
`2 ^ attempt` is an exclusive or. -/
def Backoff.slept (b : Backoff) : Backoff :=
  ⟨b.interval, b.maxSleep, b.maxTries,
   min (((2 ^^^ b.attempt : Nat) : Int) * b.interval) b.maxSleep, b.attempt + 1⟩

/-- The object after `n` sleeps. -/
def Backoff.after (b : Backoff) : Nat → Backoff
  | 0 => b
  | n + 1 => (b.after n).slept

theorem Backoff.after_fields (b : Backoff) (n : Nat) :
    (b.after n).interval = b.interval ∧ (b.after n).maxSleep = b.maxSleep ∧
    (b.after n).maxTries = b.maxTries ∧ (b.after n).attempt = b.attempt + n := by
  induction n with
  | zero => exact ⟨rfl, rfl, rfl, rfl⟩
  | succ n ih =>
    obtain ⟨h1, h2, h3, h4⟩ := ih
    refine ⟨h1, h2, h3, ?_⟩
    show (b.after n).attempt + 1 = _
    omega

/-- The wait before the try number `n` (counted from zero) of a new object. -/
def waitBefore (interval maxSleep : Int) (maxTries n : Nat) : Int :=
  ((Backoff.new interval maxSleep maxTries).after n).wait

theorem waitBefore_succ (i m : Int) (t n : Nat) :
    waitBefore i m t (n + 1) = min (((2 ^^^ n : Nat) : Int) * i) m := by
  have h := Backoff.after_fields (Backoff.new i m t) n
  simp only [Backoff.new, Nat.zero_add] at h
  show min (((2 ^^^ ((Backoff.new i m t).after n).attempt : Nat) : Int) *
    ((Backoff.new i m t).after n).interval) ((Backoff.new i m t).after n).maxSleep = _
  simp only [Backoff.new]
  rw [h.1, h.2.1, h.2.2.2]

/-- C51, the bound: no wait is negative and none exceeds the maximum, whatever
the interval, the maximum and the number of tries. -/
theorem C51_bounded (i m : Int) (t n : Nat) (hi : 0 ≤ i) (hm : 0 ≤ m) :
    0 ≤ waitBefore i m t n ∧ waitBefore i m t n ≤ m := by
  cases n with
  | zero => exact ⟨Int.le_refl 0, hm⟩
  | succ n =>
    rw [waitBefore_succ]
    refine ⟨?_, Int.min_le_right _ _⟩
    exact Int.le_min.mpr ⟨Int.mul_nonneg (Int.natCast_nonneg _) hi, hm⟩

/-- The exclusive or with two adds two when that bit is clear and takes two
away when it is set. -/
theorem xor_two (n : Nat) : 2 ^^^ n = if n % 4 < 2 then n + 2 else n - 2 := by
  obtain ⟨q, r, hr, rfl⟩ : ∃ q r, r < 4 ∧ n = 2 ^ 2 * q + r :=
    ⟨n / 4, n % 4, Nat.mod_lt _ (by omega), by omega⟩
  have h0 : (2 : Nat) = 2 ^ 2 * 0 + 2 := rfl
  have hx : (2 ^ 2 * 0 + 2) ^^^ (2 ^ 2 * q + r) = 2 ^ 2 * q + (2 ^^^ r) := by
    apply Nat.eq_of_testBit_eq
    intro j
    rw [Nat.testBit_xor, Nat.testBit_two_pow_mul_add _ (by omega),
      Nat.testBit_two_pow_mul_add _ (by omega)]
    have h2 : 2 ^^^ r < 2 ^ 2 := Nat.xor_lt_two_pow (by omega) (by omega)
    rw [Nat.testBit_two_pow_mul_add _ h2]
    split
    · rw [Nat.testBit_xor]
    · simp
  have hx' : 2 ^^^ (2 ^ 2 * q + r) = 2 ^ 2 * q + (2 ^^^ r) := hx
  rw [hx']
  have : r = 0 ∨ r = 1 ∨ r = 2 ∨ r = 3 := by omega
  rcases this with rfl | rfl | rfl | rfl
  all_goals
    first
    | (have e : (2 ^^^ 0 : Nat) = 2 := rfl
       rw [e]; split <;> omega)
    | (have e : (2 ^^^ 1 : Nat) = 3 := rfl
       rw [e]; split <;> omega)
    | (have e : (2 ^^^ 2 : Nat) = 0 := rfl
       rw [e]; split <;> omega)
    | (have e : (2 ^^^ 3 : Nat) = 1 := rfl
       rw [e]; split <;> omega)

/-- C51, growth is false of the code: for every positive interval and maximum
the wait drops to zero before the fourth try, although it was positive before
the third. -/
theorem C51_growth_fails (i m : Int) (t : Nat) (hi : 0 < i) (hm : 0 < m) :
    0 < waitBefore i m t 2 ∧ waitBefore i m t 3 = 0 := by
  rw [waitBefore_succ, waitBefore_succ]
  have e1 : (2 ^^^ 1 : Nat) = 3 := rfl
  have e2 : (2 ^^^ 2 : Nat) = 0 := rfl
  rw [e1, e2]
  constructor
  · have : 0 < ((3 : Nat) : Int) * i := by omega
    omega
  · have : ((0 : Nat) : Int) * i = 0 := by simp
    omega

/-- C51: the waits are not exponential. They follow the number of the try, two
intervals above or below it, up to the maximum. -/
theorem C51_linear (i m : Int) (t n : Nat) :
    waitBefore i m t (n + 1) =
      min ((if n % 4 < 2 then (n : Int) + 2 else (n : Int) - 2) * i) m := by
  rw [waitBefore_succ, xor_two]
  split
  · rw [Int.natCast_add]; rfl
  · have : ((n - 2 : Nat) : Int) = (n : Int) - 2 := by omega
    rw [this]

/-- C51: the drop comes back at every multiple of four, as long as the maximum
is not reached. -/
theorem C51_drops_fail (i m : Int) (t q : Nat) (hi : 0 < i)
    (hm : (4 * (q : Int) + 3) * i ≤ m) :
    waitBefore i m t (4 * q + 3) < waitBefore i m t (4 * q + 2) := by
  rw [C51_linear i m t (4 * q + 2), C51_linear i m t (4 * q + 1)]
  rw [if_neg (by omega), if_pos (by omega)]
  have e1 : (((4 * q + 1 : Nat) : Int) + 2) * i = (4 * (q : Int) + 3) * i := by
    congr 1
  have e2 : (((4 * q + 2 : Nat) : Int) - 2) * i = (4 * (q : Int) + 3) * i - 3 * i := by
    rw [← Int.sub_mul]
    congr 1
    omega
  rw [e1, e2]
  omega

/-- With the default arguments in tenths of a second. -/
example : (List.range 9).map (waitBefore 1 100 20) = [0, 2, 3, 0, 1, 6, 7, 4, 5] := by
  decide +kernel

/-! ## Restarts -/

/-- What the surroundings do in one round of the loop. -/
structure Round where
  /-- the stop signal is set when the loop condition is evaluated -/
  stop : Bool
  /-- what `restart` returns -/
  ok : Bool
  /-- another task has enabled the connection during the waits -/
  other : Bool

/-- The state `_handle_restart` works on: the connection's `_enabled`,
`_restarts` and `_restart_attempts` (eight-bit counters, `connection.py`
98-99), and the tries of the back-off object. -/
structure RState where
  enabled : Bool
  restarts : Nat
  attempts : Nat
  tries : Nat
deriving DecidableEq

/-- One pass of the loop body (`connection.py` 251-256). -/
def RState.round (s : RState) (r : Round) : RState :=
  ⟨s.enabled || r.other || r.ok,
   if r.ok then (s.restarts + 1) % 256 else s.restarts,
   (s.attempts + 1) % 256,
   s.tries + 1⟩

/-- `_handle_restart` (`connection.py` 236-256): `env i` is what happens in
round `i`. -/
def handleRestart (maxTries : Nat) (env : Nat → Round) (i : Nat) (s : RState) : RState :=
  if !s.enabled && s.tries < maxTries && !(env i).stop then
    handleRestart maxTries env (i + 1) (s.round (env i))
  else s
termination_by maxTries - s.tries
decreasing_by
  simp only [RState.round]
  rename_i h
  simp only [Bool.and_eq_true, decide_eq_true_eq] at h
  omega

/-- The number of successes among the rounds `i` to `i + n - 1`. -/
def successes (env : Nat → Round) (i : Nat) : Nat → Nat
  | 0 => 0
  | n + 1 => (if (env i).ok then 1 else 0) + successes env (i + 1) n

theorem handleRestart_spec (maxTries : Nat) (env : Nat → Round) (i : Nat) (s : RState) :
    ∃ n,
      (handleRestart maxTries env i s).tries = s.tries + n ∧
      n ≤ maxTries - s.tries ∧
      (∀ k, k < n → (env (i + k)).stop = false) ∧
      (∀ k, k + 1 < n → (env (i + k)).ok = false ∧ (env (i + k)).other = false) ∧
      (0 < n → s.enabled = false) ∧
      ((handleRestart maxTries env i s).enabled = true ↔
        s.enabled = true ∨ ∃ k, k < n ∧ ((env (i + k)).ok = true ∨ (env (i + k)).other = true)) ∧
      ((handleRestart maxTries env i s).enabled = true ∨
        (handleRestart maxTries env i s).tries ≥ maxTries ∨ (env (i + n)).stop = true) ∧
      (handleRestart maxTries env i s).attempts % 256 = (s.attempts + n) % 256 ∧
      (handleRestart maxTries env i s).restarts % 256 =
        (s.restarts + successes env i n) % 256 := by
  rw [handleRestart]
  by_cases hc : (!s.enabled && decide (s.tries < maxTries) && !(env i).stop) = true
  · rw [if_pos hc]
    simp only [Bool.and_eq_true, decide_eq_true_eq, Bool.not_eq_true'] at hc
    obtain ⟨⟨he, ht⟩, hs⟩ := hc
    obtain ⟨n, h1, h2, h3, h4, h5, h6, h7, h8, h9⟩ :=
      handleRestart_spec maxTries env (i + 1) (s.round (env i))
    have hsh : ∀ k, i + 1 + k = i + (k + 1) := fun k => by omega
    refine ⟨n + 1, ?_, ?_, ?_, ?_, fun _ => he, ?_, ?_, ?_, ?_⟩
    · rw [h1]; simp only [RState.round]; omega
    · simp only [RState.round] at h2; omega
    · intro k hk
      cases k with
      | zero => exact hs
      | succ k => rw [← hsh]; exact h3 k (by omega)
    · intro k hk
      cases k with
      | zero =>
        have := h5 (by omega)
        simp only [RState.round, he, Bool.false_or, Bool.or_eq_false_iff] at this
        exact ⟨this.2, this.1⟩
      | succ k => rw [← hsh]; exact h4 k (by omega)
    · rw [h6]
      simp only [RState.round, he, Bool.false_or, Bool.or_eq_true, Bool.false_eq_true, false_or]
      constructor
      · rintro (h | ⟨k, hk, h⟩)
        · exact ⟨0, by omega, h.symm⟩
        · exact ⟨k + 1, by omega, by rw [← hsh]; exact h⟩
      · rintro ⟨k, hk, h⟩
        cases k with
        | zero => exact Or.inl h.symm
        | succ k => exact Or.inr ⟨k, by omega, by rw [hsh]; exact h⟩
    · rw [hsh] at h7; exact h7
    · rw [h8]; simp only [RState.round]; omega
    · rw [h9]
      simp only [RState.round, successes]
      split <;> omega
  · rw [if_neg hc]
    refine ⟨0, rfl, Nat.zero_le _, fun k hk => absurd hk (by omega),
      fun k hk => absurd hk (by omega), fun h => absurd h (by omega), ?_, ?_, rfl, rfl⟩
    · constructor
      · exact Or.inl
      · rintro (h | ⟨k, hk, _⟩)
        · exact h
        · omega
    · simp only [Bool.and_eq_true, decide_eq_true_eq, Bool.not_eq_true', not_and, Nat.not_lt] at hc
      by_cases he : s.enabled = true
      · exact Or.inl he
      · by_cases ht : s.tries < maxTries
        · have := hc ⟨by simpa using he, ht⟩
          right; right
          simpa using this
        · exact Or.inr (Or.inl (by omega))
termination_by maxTries - s.tries
decreasing_by
  simp only [RState.round]
  omega

/-- C50: one processing call makes at most the configured number of attempts,
less those the back-off object has already made; none of them starts with the
stop signal set; every one before the last failed; it ends enabled, given up
or stopped; a connection nobody else enables is enabled exactly when an
attempt succeeded. -/
theorem C50_bounded (maxTries : Nat) (env : Nat → Round) (s : RState)
    (ho : ∀ k, (env k).other = false) (hs : s.enabled = false) :
    ∃ n,
      (handleRestart maxTries env 0 s).tries = s.tries + n ∧
      n ≤ maxTries - s.tries ∧
      (∀ k, k < n → (env k).stop = false) ∧
      (∀ k, k + 1 < n → (env k).ok = false) ∧
      ((handleRestart maxTries env 0 s).enabled = true ↔ ∃ k, k + 1 = n ∧ (env k).ok = true) ∧
      ((handleRestart maxTries env 0 s).enabled = true ∨ maxTries ≤ s.tries + n ∨
        (env n).stop = true) := by
  obtain ⟨n, h1, h2, h3, h4, h5, h6, h7, _, _⟩ := handleRestart_spec maxTries env 0 s
  simp only [Nat.zero_add] at h3 h4 h6 h7
  refine ⟨n, h1, h2, h3, fun k hk => (h4 k hk).1, ?_, ?_⟩
  · rw [h6]
    simp only [hs, ho, Bool.false_eq_true, or_false, false_or]
    constructor
    · rintro ⟨k, hk, h⟩
      rcases Nat.lt_or_ge (k + 1) n with hlt | hge
      · rw [(h4 k hlt).1] at h; cases h
      · exact ⟨k, by omega, h⟩
    · rintro ⟨k, hk, h⟩
      exact ⟨k, by omega, h⟩
  · rw [h1] at h7; exact h7

/-- C50: the counters advance, modulo their eight bits, by the number of
attempts and by the number of successes, and at most one of the attempts of a
call succeeds. -/
theorem C50_counts (maxTries : Nat) (env : Nat → Round) (s : RState) :
    ∃ n, (handleRestart maxTries env 0 s).tries = s.tries + n ∧
      (handleRestart maxTries env 0 s).attempts % 256 = (s.attempts + n) % 256 ∧
      (handleRestart maxTries env 0 s).restarts % 256 =
        (s.restarts + ((List.range n).filter (fun k => (env k).ok)).length) % 256 ∧
      ((List.range n).filter (fun k => (env k).ok)).length ≤ 1 := by
  obtain ⟨n, h1, h2, h3, h4, h5, h6, h7, h8, h9⟩ := handleRestart_spec maxTries env 0 s
  have hsuc : ∀ n i, successes env i n = ((List.range n).filter (fun k => (env (i + k)).ok)).length := by
    intro n
    induction n with
    | zero => intro i; rfl
    | succ n ih =>
      intro i
      rw [successes, ih, List.range_succ_eq_map, List.filter_cons]
      have hmap : (List.map Nat.succ (List.range n)).filter (fun k => (env (i + k)).ok)
          = ((List.range n).filter (fun k => (env (i + 1 + k)).ok)).map Nat.succ := by
        rw [List.filter_map]
        congr 1
        apply List.filter_congr
        intro k _
        simp only [Function.comp]
        have : i + k.succ = i + 1 + k := by omega
        rw [this]
      rw [hmap]
      simp only [Nat.add_zero]
      split <;> simp [Nat.add_comm]
  have hl := hsuc n 0
  simp only [Nat.zero_add] at hl h4
  refine ⟨n, h1, h8, by rw [h9, hl], ?_⟩
  cases n with
  | zero => simp
  | succ n =>
    rw [List.range_succ, List.filter_append, List.length_append]
    have hz : (List.range n).filter (fun k => (env k).ok) = [] := by
      rw [List.filter_eq_nil_iff]
      intro k hk
      rw [(h4 k (by have := List.mem_range.mp hk; omega)).1]
      simp
    rw [hz]
    simp only [List.length_nil, Nat.zero_add]
    exact Nat.le_trans (List.length_filter_le _ _) (Nat.le_refl _)

/-- C50: if every attempt fails and nobody stops it, all configured attempts
are made, and the connection is still disabled. -/
theorem C50_exhausts (maxTries : Nat) (env : Nat → Round) (s : RState)
    (hs : s.enabled = false)
    (ho : ∀ k, (env k).other = false ∧ (env k).ok = false ∧ (env k).stop = false)
    (ht : s.tries ≤ maxTries) :
    (handleRestart maxTries env 0 s).tries = maxTries ∧
    (handleRestart maxTries env 0 s).enabled = false ∧
    (handleRestart maxTries env 0 s).restarts % 256 = s.restarts % 256 ∧
    (handleRestart maxTries env 0 s).attempts % 256 =
      (s.attempts + (maxTries - s.tries)) % 256 := by
  obtain ⟨n, h1, h2, h3, h4, h5, h6⟩ :=
    C50_bounded maxTries env s (fun k => (ho k).1) hs
  obtain ⟨n', h1', ha, hr, _⟩ := C50_counts maxTries env s
  have hn : n' = n := by omega
  subst hn
  have he : (handleRestart maxTries env 0 s).enabled = false := by
    rw [Bool.eq_false_iff]
    intro h
    obtain ⟨k, _, hk⟩ := h5.mp h
    rw [(ho k).2.1] at hk; cases hk
  have hmax : maxTries ≤ s.tries + n' := by
    rcases h6 with h | h | h
    · rw [he] at h; cases h
    · exact h
    · rw [(ho n').2.2] at h; cases h
  have hz : ((List.range n').filter (fun k => (env k).ok)) = [] := by
    rw [List.filter_eq_nil_iff]
    intro k _
    rw [(ho k).2.1]; simp
  refine ⟨by omega, he, by rw [hr, hz]; rfl, ?_⟩
  rw [ha]
  congr 1
  omega

/-- Three attempts, the third of which succeeds. -/
example : handleRestart 20 (fun k => ⟨false, k == 2, false⟩) 0 ⟨false, 0, 0, 0⟩
    = ⟨true, 1, 3, 3⟩ := by decide +kernel

/-- The stop signal set after two attempts. -/
example : handleRestart 20 (fun k => ⟨k == 2, false, false⟩) 0 ⟨false, 0, 0, 0⟩
    = ⟨false, 0, 2, 2⟩ := by decide +kernel

/-- The channels of the environment that publish the counters
(`connection.py` 100-109): both are registered with `_restarts`. -/
def RState.published (s : RState) : List (String × Nat) :=
  [("restarts", s.restarts), ("restart_attempts", s.restarts)]

/-- C50, the published count of attempts is false of the code: when every
attempt fails, all of them are made and the channel named `restart_attempts`
does not move. -/
theorem C50_published_fails (maxTries : Nat) (env : Nat → Round) (s : RState)
    (hs : s.enabled = false) (h8 : s.restarts < 256)
    (ho : ∀ k, (env k).other = false ∧ (env k).ok = false ∧ (env k).stop = false)
    (ht : s.tries = 0) :
    (handleRestart maxTries env 0 s).tries = maxTries ∧
    (handleRestart maxTries env 0 s).published.lookup "restart_attempts"
      = s.published.lookup "restart_attempts" := by
  obtain ⟨h1, h2, h3, h4⟩ := C50_exhausts maxTries env s hs ho (by omega)
  refine ⟨h1, ?_⟩
  have hlt : ∀ (i : Nat) (s : RState), s.restarts < 256 →
      (handleRestart maxTries env i s).restarts < 256 := by
    intro i s h
    have : ∀ (m : Nat) (i : Nat) (s : RState), maxTries - s.tries = m → s.restarts < 256 →
        (handleRestart maxTries env i s).restarts < 256 := by
      intro m
      induction m with
      | zero =>
        intro i s hm h
        rw [handleRestart, if_neg]
        · exact h
        · simp only [Bool.and_eq_true, decide_eq_true_eq]
          omega
      | succ m ih =>
        intro i s hm h
        rw [handleRestart]
        split
        · apply ih
          · simp only [RState.round]; omega
          · simp only [RState.round]; split <;> omega
        · exact h
    exact this _ i s rfl h
  have hf := hlt 0 s h8
  have : (handleRestart maxTries env 0 s).restarts = s.restarts := by omega
  simp only [RState.published, this]

/-- C50: an attempt under way is not given up when somebody else enables the
connection during its wait: it restarts a connection that is already enabled,
and counts a restart. -/
theorem C50_restarts_enabled_fails (maxTries : Nat) (env : Nat → Round) (s : RState)
    (hs : s.enabled = false) (ht : s.tries < maxTries)
    (h0 : (env 0).stop = false ∧ (env 0).other = true ∧ (env 0).ok = true) :
    handleRestart maxTries env 0 s =
      ⟨true, (s.restarts + 1) % 256, (s.attempts + 1) % 256, s.tries + 1⟩ := by
  rw [handleRestart, if_pos (by simp [hs, ht, h0.1]), handleRestart, if_neg]
  · simp [RState.round, h0.2]
  · simp [RState.round, h0.2]

end Verif.Net
