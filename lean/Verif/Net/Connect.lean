import Verif.Net.Backoff
/-!
C105: connecting with back-off: `tcp_transport_protocol_backoff` and what it calls (`net/tcp/create.py` 23–77; the same
for UDP, `net/udp/create.py` 21–82), `try_log_connection_error` (`net/util.py` 215–232) and the choice that asyncio's
`create_connection` makes among the addresses of a host (CPython, trusted).
-/
namespace Verif.Connect

open Verif.Net (Backoff)

/-- An `OSError`: whether it is a `ConnectionError`, and its text. -/
structure Err where
  conn : Bool
  text : Nat
  deriving DecidableEq

/-- What trying one address gives: a transport or an exception. -/
inductive Try where
  | up (t : Nat)
  | down (e : Err)
  deriving DecidableEq

/-- The exceptions of the addresses tried, when none could be connected. -/
def failures : List Try → List Err
  | [] => []
  | .up _ :: ts => failures ts
  | .down e :: ts => e :: failures ts

/-- The first address that could be connected. -/
def firstUp : List Try → Option Nat
  | [] => none
  | .up t :: _ => some t
  | .down _ :: ts => firstUp ts

/-- `create_connection` (asyncio/base_events.py, and the same in uvloop): addresses are tried in order; if none works,
the exception is that of the first when all have the same text, and a plain `OSError` otherwise. -/
def create (ts : List Try) : Except Err Nat :=
  match firstUp ts with
  | some t => .ok t
  | none =>
    match failures ts with
    | [] => .error ⟨false, 0⟩
    | e :: es => if es.all (fun x => x.text = e.text) then .error e else .error ⟨false, e.text⟩

/-- `try_log_connection_error`, util.py 222–232: nothing for a `ConnectionError`, any other exception is passed on. -/
def attempt (ts : List Try) : Except Err (Option Nat) :=
  match create ts with
  | .ok t => .ok (some t)
  | .error e => if e.conn then .ok none else .error e

/-- How connecting ends. -/
inductive Out where
  | connected (t : Nat)
  | raised (e : Err)
  /-- the assertion, create.py 73 -/
  | gaveUp
  deriving DecidableEq

structure Res where
  out : Out
  /-- the wait before each attempt -/
  waits : List Int
  deriving DecidableEq

/-- `tcp_transport_protocol_backoff`, create.py 56–74. `env k` is what the addresses give at the `k`-th attempt. -/
def connect (b : Backoff) (env : Nat → List Try) : Res :=
  if h : b.giveUp then ⟨.gaveUp, []⟩
  else
    match attempt (env 0) with
    | .ok (some t) => ⟨.connected t, [b.wait]⟩
    | .error e => ⟨.raised e, [b.wait]⟩
    | .ok none =>
      let r := connect b.slept (fun k => env (k + 1))
      ⟨r.out, b.wait :: r.waits⟩
termination_by b.maxTries - b.attempt
decreasing_by
  simp only [Backoff.giveUp, decide_eq_true_eq] at h
  simp only [Backoff.slept]
  omega

theorem res_eq {r : Res} {o : Out} {w : List Int} (h1 : r.out = o) (h2 : r.waits = w) : r = ⟨o, w⟩ := by
  cases r
  dsimp only at h1 h2
  rw [h1, h2]

/-! ### What an attempt gives -/

/-- Every address of the host refuses, in the same words. -/
def Refused (ts : List Try) : Prop := ts ≠ [] ∧ ∃ x, ∀ t ∈ ts, t = .down ⟨true, x⟩

/-- The first address that works gives `t`. -/
def Works (ts : List Try) (t : Nat) : Prop :=
  ∃ pre post, ts = pre ++ .up t :: post ∧ ∀ x ∈ pre, ∃ e, x = .down e

/-- No address works, and not all refuse in the same words. -/
def Broken (ts : List Try) : Prop :=
  (∀ t ∈ ts, ∃ e, t = .down e) ∧
    (ts = [] ∨ (∃ e, .down e ∈ ts ∧ e.conn = false ∧ ∀ t ∈ ts, t = .down e) ∨
      ∃ d e, .down d ∈ ts ∧ .down e ∈ ts ∧ d.text ≠ e.text)

theorem down_none (ts : List Try) (h : ∀ t ∈ ts, ∃ e, t = .down e) :
    firstUp ts = none ∧ (failures ts).map Try.down = ts := by
  induction ts with
  | nil => exact ⟨rfl, rfl⟩
  | cons t ts ih =>
    obtain ⟨e, rfl⟩ := h t List.mem_cons_self
    obtain ⟨h1, h2⟩ := ih (fun x hx => h x (List.mem_cons_of_mem _ hx))
    exact ⟨h1, by simp [failures, h2]⟩

theorem attempt_refused (ts : List Try) (h : Refused ts) : attempt ts = .ok none := by
  obtain ⟨hn, x, hx⟩ := h
  obtain ⟨h1, h2⟩ := down_none ts (fun t ht => ⟨_, hx t ht⟩)
  unfold attempt create
  rw [h1]
  dsimp only
  cases hf : failures ts with
  | nil => rw [hf] at h2; exact absurd h2.symm hn
  | cons e es =>
    rw [hf] at h2
    have he : ∀ d ∈ e :: es, d = ⟨true, x⟩ := by
      intro d hd
      have : Try.down d ∈ ts := by rw [← h2]; exact List.mem_map_of_mem hd
      have := hx _ this
      injection this
    have h0 := he e List.mem_cons_self
    have hall : es.all (fun d => decide (d.text = e.text)) = true := by
      rw [List.all_eq_true]
      intro d hd
      rw [he d (List.mem_cons_of_mem _ hd), h0]
      simp
    dsimp only
    rw [if_pos hall, h0]
    rfl

theorem attempt_works (ts : List Try) (t : Nat) (h : Works ts t) : attempt ts = .ok (some t) := by
  obtain ⟨pre, post, rfl, hp⟩ := h
  have : firstUp (pre ++ .up t :: post) = some t := by
    induction pre with
    | nil => rfl
    | cons x pre ih =>
      obtain ⟨e, rfl⟩ := hp x List.mem_cons_self
      exact ih (fun y hy => hp y (List.mem_cons_of_mem _ hy))
  unfold attempt create
  rw [this]

theorem attempt_broken (ts : List Try) (h : Broken ts) : ∃ e, attempt ts = .error e ∧ e.conn = false := by
  obtain ⟨hd, h⟩ := h
  obtain ⟨h1, h2⟩ := down_none ts hd
  unfold attempt create
  rw [h1]
  dsimp only
  cases hf : failures ts with
  | nil => exact ⟨⟨false, 0⟩, rfl, rfl⟩
  | cons e es =>
    dsimp only
    rw [hf] at h2
    by_cases ha : es.all (fun d => decide (d.text = e.text)) = true
    · rw [if_pos ha]
      have hall : ∀ d ∈ e :: es, d.text = e.text := by
        intro d hx
        rcases List.mem_cons.mp hx with rfl | hx
        · rfl
        · exact of_decide_eq_true (List.all_eq_true.mp ha d hx)
      rcases h with h | ⟨d, hd1, hd2, hd3⟩ | ⟨a, b, ha1, hb1, hne⟩
      · rw [h] at h2; simp at h2
      · have : Try.down e ∈ ts := by rw [← h2]; exact List.mem_cons_self
        have hed : e = d := by have := hd3 _ this; injection this
        subst hed
        exact ⟨e, by simp [hd2], hd2⟩
      · rw [← h2] at ha1 hb1
        obtain ⟨a', ha2, ha3⟩ := List.mem_map.mp ha1
        obtain ⟨b', hb2, hb3⟩ := List.mem_map.mp hb1
        injection ha3 with ha3
        injection hb3 with hb3
        subst ha3 hb3
        exact absurd ((hall _ ha2).trans (hall _ hb2).symm) hne
    · rw [if_neg ha]
      exact ⟨⟨false, e.text⟩, rfl, rfl⟩

/-- An attempt is one of these, whatever the addresses do, unless the first of several exceptions with one text is
another kind than the rest. -/
theorem attempt_cases (ts : List Try) (hk : ∀ d e, .down d ∈ ts → .down e ∈ ts → d.text = e.text → d = e) :
    Refused ts ∨ (∃ t, Works ts t) ∨ Broken ts := by
  by_cases hu : ∀ t ∈ ts, ∃ e, t = .down e
  · by_cases hn : ts = []
    · exact Or.inr (Or.inr ⟨hu, Or.inl hn⟩)
    · obtain ⟨t, ts', rfl⟩ := List.exists_cons_of_ne_nil hn
      obtain ⟨e, rfl⟩ := hu t List.mem_cons_self
      by_cases hs : ∀ d, Try.down d ∈ Try.down e :: ts' → d.text = e.text
      · have he : ∀ t ∈ Try.down e :: ts', t = .down e := by
          intro t ht
          obtain ⟨d, rfl⟩ := hu t ht
          rw [hk d e ht List.mem_cons_self (hs d ht)]
        by_cases hc : e.conn = true
        · refine Or.inl ⟨hn, e.text, ?_⟩
          intro t ht
          rw [he t ht]
          obtain ⟨c, x⟩ := e
          simp only at hc
          rw [hc]
        · refine Or.inr (Or.inr ⟨hu, Or.inr (Or.inl ⟨e, List.mem_cons_self, by simpa using hc, he⟩)⟩)
      · have hs' : ∃ d, Try.down d ∈ Try.down e :: ts' ∧ d.text ≠ e.text := by
          apply Classical.byContradiction
          intro hno
          apply hs
          intro d hd
          apply Classical.byContradiction
          intro hne
          exact hno ⟨d, hd, hne⟩
        obtain ⟨d, hd, hne⟩ := hs'
        exact Or.inr (Or.inr ⟨hu, Or.inr (Or.inr ⟨d, e, hd, List.mem_cons_self, hne⟩)⟩)
  · refine Or.inr (Or.inl ?_)
    clear hk
    induction ts with
    | nil => exact absurd (by simp) hu
    | cons x ts ih =>
      cases x with
      | up t => exact ⟨t, [], ts, rfl, by simp⟩
      | down e =>
        have : ¬ ∀ t ∈ ts, ∃ e, t = .down e := by
          intro h
          apply hu
          intro t ht
          rcases List.mem_cons.mp ht with rfl | ht
          · exact ⟨e, rfl⟩
          · exact h t ht
        obtain ⟨t, pre, post, rfl, hp⟩ := ih this
        refine ⟨t, .down e :: pre, post, rfl, ?_⟩
        intro y hy
        rcases List.mem_cons.mp hy with rfl | hy
        · exact ⟨e, rfl⟩
        · exact hp y hy

/-! ### Connecting -/

/-- The waits of `n` attempts. -/
def waits (b : Backoff) (n : Nat) : List Int := (List.range n).map (fun k => (b.after k).wait)

theorem after_slept (b : Backoff) (n : Nat) : b.slept.after n = b.after (n + 1) := by
  induction n with
  | zero => rfl
  | succ n ih => show (b.slept.after n).slept = _; rw [ih]; rfl

theorem waits_succ (b : Backoff) (n : Nat) : waits b (n + 1) = b.wait :: waits b.slept n := by
  unfold waits
  rw [List.range_succ_eq_map, List.map_cons, List.map_map]
  congr 1
  apply List.map_congr_left
  intro k _
  simp only [Function.comp]
  rw [after_slept]

theorem connect_refused (k : Nat) : ∀ (b : Backoff) (env : Nat → List Try), b.attempt + k ≤ b.maxTries →
    (∀ j, j < k → Refused (env j)) →
    (connect b env).out = (connect (b.after k) (fun j => env (j + k))).out ∧
    (connect b env).waits = waits b k ++ (connect (b.after k) (fun j => env (j + k))).waits := by
  induction k with
  | zero => intro b env _ _; exact ⟨rfl, rfl⟩
  | succ k ih =>
    intro b env hb hr
    have hg : b.giveUp = false := by simp [Backoff.giveUp]; omega
    have h0 := attempt_refused _ (hr 0 (Nat.succ_pos _))
    have hc : connect b env = ⟨(connect b.slept (fun j => env (j + 1))).out,
        b.wait :: (connect b.slept (fun j => env (j + 1))).waits⟩ := by
      rw [connect]
      simp [hg, h0]
    have hs : b.slept.attempt + k ≤ b.slept.maxTries := by
      show b.attempt + 1 + k ≤ b.maxTries
      omega
    obtain ⟨i1, i2⟩ := ih b.slept (fun j => env (j + 1)) hs (fun j hj => hr (j + 1) (Nat.succ_lt_succ hj))
    rw [after_slept] at i1 i2
    have he : (fun j => env (j + (k + 1))) = (fun j => env (j + k + 1)) := by
      funext j; congr 1
    rw [hc, waits_succ, he]
    exact ⟨i1, by rw [i2]; rfl⟩

/-- C105: a host that refuses for a while and then accepts is connected to, at the first attempt that works, after the
waits of the back-off and no others. -/
theorem C105_connects (b : Backoff) (env : Nat → List Try) (k t : Nat) (hk : b.attempt + k < b.maxTries)
    (hr : ∀ j, j < k → Refused (env j)) (hw : Works (env k) t) :
    connect b env = ⟨.connected t, waits b (k + 1)⟩ := by
  obtain ⟨h1, h2⟩ := connect_refused k b env (by omega) hr
  obtain ⟨-, -, f3, f4⟩ := Backoff.after_fields b k
  have hg : (b.after k).giveUp = false := by simp [Backoff.giveUp, f3, f4]; omega
  have hc : connect (b.after k) (fun j => env (j + k)) = ⟨.connected t, [(b.after k).wait]⟩ := by
    rw [connect]
    simp [hg, attempt_works _ _ hw]
  rw [hc] at h1 h2
  have hs : waits b (k + 1) = waits b k ++ [(b.after k).wait] := by
    unfold waits
    rw [List.range_succ, List.map_append]
    rfl
  rw [hs]
  exact res_eq h1 h2

/-- C105: a host that always refuses is tried as often as the back-off allows, and then given up. -/
theorem C105_gives_up (b : Backoff) (env : Nat → List Try) (hb : b.attempt ≤ b.maxTries)
    (hr : ∀ j, j < b.maxTries - b.attempt → Refused (env j)) :
    connect b env = ⟨.gaveUp, waits b (b.maxTries - b.attempt)⟩ := by
  obtain ⟨h1, h2⟩ := connect_refused (b.maxTries - b.attempt) b env (by omega) hr
  obtain ⟨-, -, f3, f4⟩ := Backoff.after_fields b (b.maxTries - b.attempt)
  have hg : (b.after (b.maxTries - b.attempt)).giveUp = true := by simp [Backoff.giveUp, f3, f4]; omega
  have hc : connect (b.after (b.maxTries - b.attempt)) (fun j => env (j + (b.maxTries - b.attempt))) = ⟨.gaveUp, []⟩ := by
    rw [connect]
    simp [hg]
  rw [hc] at h1 h2
  rw [List.append_nil] at h2
  exact res_eq h1 h2

/-- C105: whatever the network does, there are no more attempts than allowed, and each waits as the back-off says. -/
theorem C105_bounded (b : Backoff) (env : Nat → List Try) :
    (connect b env).waits.length ≤ b.maxTries - b.attempt ∧
      (connect b env).waits = waits b (connect b env).waits.length := by
  generalize hn : b.maxTries - b.attempt = n
  induction n generalizing b env with
  | zero =>
    have hg : b.giveUp = true := by simp [Backoff.giveUp]; omega
    have : connect b env = ⟨.gaveUp, []⟩ := by rw [connect]; simp [hg]
    rw [this]
    exact ⟨Nat.le_refl _, rfl⟩
  | succ n ih =>
    have hg : b.giveUp = false := by simp [Backoff.giveUp]; omega
    have h1 : ([b.wait] : List Int) = waits b 1 := by rfl
    rw [connect]
    simp only [hg, Bool.false_eq_true, dite_false]
    cases ha : attempt (env 0) with
    | error e => exact ⟨by simp, h1⟩
    | ok o =>
      cases o with
      | some t => exact ⟨by simp, h1⟩
      | none =>
        have hs : b.slept.maxTries - b.slept.attempt = n := by
          show b.maxTries - (b.attempt + 1) = n
          omega
        obtain ⟨i1, i2⟩ := ih b.slept (fun k => env (k + 1)) hs
        refine ⟨by simpa using i1, ?_⟩
        simp only [List.length_cons, waits_succ]
        rw [← i2]

/-- C105: the first attempt of a new back-off does not wait. -/
theorem C105_at_once (i m : Int) (n : Nat) (hn : 0 < n) (env : Nat → List Try) :
    (connect (Backoff.new i m n) env).waits.head? = some 0 := by
  have hg : (Backoff.new i m n).giveUp = false := by simp [Backoff.giveUp, Backoff.new]; omega
  rw [connect]
  simp only [hg, Bool.false_eq_true, dite_false]
  cases attempt (env 0) with
  | error e => rfl
  | ok o => cases o <;> rfl

/-! ### What fails -/

/-- C105 fails for a host of two addresses that both refuse, if the exceptions name the address, as those of asyncio
do: the first attempt raises, nothing is tried again, whatever would have happened later. -/
theorem C105_two_addresses_fails (b : Backoff) (env : Nat → List Try) (hb : b.giveUp = false) (x y : Nat)
    (hxy : x ≠ y) (h : env 0 = [.down ⟨true, x⟩, .down ⟨true, y⟩]) :
    ∃ e, connect b env = ⟨.raised e, [b.wait]⟩ := by
  have hbr : Broken (env 0) := by
    rw [h]
    refine ⟨?_, Or.inr (Or.inr ⟨⟨true, x⟩, ⟨true, y⟩, by simp, by simp, hxy⟩)⟩
    intro t ht
    simp only [List.mem_cons, List.not_mem_nil, or_false] at ht
    rcases ht with rfl | rfl
    · exact ⟨_, rfl⟩
    · exact ⟨_, rfl⟩
  obtain ⟨e, he, -⟩ := attempt_broken _ hbr
  refine ⟨e, ?_⟩
  rw [connect]
  simp [hb, he]

/-- C105 fails for every attempt that ends in another way than by refusing (a host that cannot be reached or whose name
is not known yet): connecting ends there. -/
theorem C105_other_fails (b : Backoff) (env : Nat → List Try) (k : Nat) (hk : b.attempt + k < b.maxTries)
    (hr : ∀ j, j < k → Refused (env j)) (hx : Broken (env k)) :
    ∃ e, connect b env = ⟨.raised e, waits b (k + 1)⟩ ∧ e.conn = false := by
  obtain ⟨h1, h2⟩ := connect_refused k b env (by omega) hr
  obtain ⟨-, -, f3, f4⟩ := Backoff.after_fields b k
  have hg : (b.after k).giveUp = false := by simp [Backoff.giveUp, f3, f4]; omega
  obtain ⟨e, he, hc⟩ := attempt_broken _ hx
  have hc' : connect (b.after k) (fun j => env (j + k)) = ⟨.raised e, [(b.after k).wait]⟩ := by
    rw [connect]
    simp [hg, he]
  rw [hc'] at h1 h2
  have hs : waits b (k + 1) = waits b k ++ [(b.after k).wait] := by
    unfold waits
    rw [List.range_succ, List.map_append]
    rfl
  refine ⟨e, ?_, hc⟩
  rw [hs]
  exact res_eq h1 h2

/-- C105 fails for a back-off that a connection has used up: the next connection it is given to is given up without an
attempt. -/
theorem C105_used_fails (b : Backoff) (env env' : Nat → List Try) (hb : b.attempt ≤ b.maxTries)
    (hr : ∀ j, j < b.maxTries - b.attempt → Refused (env j)) :
    connect (b.after (connect b env).waits.length) env' = ⟨.gaveUp, []⟩ := by
  have h := C105_gives_up b env hb hr
  have hl : (connect b env).waits.length = b.maxTries - b.attempt := by rw [h]; simp [waits]
  rw [hl]
  obtain ⟨-, -, f3, f4⟩ := Backoff.after_fields b (b.maxTries - b.attempt)
  have hg : (b.after (b.maxTries - b.attempt)).giveUp = true := by simp [Backoff.giveUp, f3, f4]; omega
  rw [connect]
  simp [hg]

/-! ### Cases -/

/-- A host of one address that refuses twice. -/
def exEnv : Nat → List Try := fun k => if k < 2 then [.down ⟨true, 1⟩] else [.up 7]
/-- `localhost` with both kinds of addresses, of which the second accepts later. -/
def exDual : Nat → List Try := fun k => if k < 1 then [.down ⟨true, 1⟩, .down ⟨true, 2⟩] else [.down ⟨true, 1⟩, .up 7]

theorem C105_cases :
    Refused (exEnv 0) ∧ Refused (exEnv 1) ∧ Works (exEnv 2) 7 ∧ Works (exDual 1) 7 ∧ Broken (exDual 0) ∧
    connect (Backoff.new 100 10000 20) exEnv = ⟨.connected 7, [0, 200, 300]⟩ ∧
    connect (Backoff.new 100 10000 20) exDual = ⟨.raised ⟨false, 1⟩, [0]⟩ ∧
    connect (Backoff.new 100 10000 2) exEnv = ⟨.gaveUp, [0, 200]⟩ := by
  have r0 : Refused (exEnv 0) := ⟨by simp [exEnv], 1, by simp [exEnv]⟩
  have r1 : Refused (exEnv 1) := ⟨by simp [exEnv], 1, by simp [exEnv]⟩
  have w2 : Works (exEnv 2) 7 := ⟨[], [], by simp [exEnv], by simp⟩
  have hr : ∀ j, j < 2 → Refused (exEnv j) := by
    intro j hj
    rcases j with _ | _ | j
    · exact r0
    · exact r1
    · omega
  refine ⟨r0, r1, w2, ⟨[.down ⟨true, 1⟩], [], by simp [exDual], by simp⟩, ?_, ?_, ?_, ?_⟩
  · refine ⟨by simp [exDual], Or.inr (Or.inr ⟨⟨true, 1⟩, ⟨true, 2⟩, by simp [exDual], by simp [exDual], by decide⟩)⟩
  · rw [C105_connects _ _ 2 7 (by decide) hr w2]
    decide
  · rw [connect]
    decide
  · rw [C105_gives_up _ _ (by decide) (by simpa [Backoff.new] using hr)]
    decide

end Verif.Connect
