import Verif.Base

/-!
# The connection manager (C52)

`ConnectionManager.manage` of `net/manager.py` 67-132. Connections are
numbered. The loop runs one round each time something it waits for completes:
a processing task, a new connection or the stop signal. Simplification: what
happens between two rounds is an arbitrary change of the connections' states
and an arbitrary set of completed tasks.
-/

namespace Verif.Net

/-- The loop's state: `_conns`, and for every task of `tasks` the connection it
processes. -/
structure Mgr where
  conns : List Nat
  tasks : List Nat
deriving DecidableEq

/-- What a round finds. -/
structure Found where
  /-- `not conn.disabled` -/
  enabled : Nat → Bool
  /-- `conn.auto_restart` -/
  auto : Nat → Bool
  /-- the tasks not completed, in order (`_log_exceptions` drops the others) -/
  live : List Nat
  /-- the new connection, if one was made -/
  fresh : Option Nat

/-- The filter over `_conns` (`manager.py` 97-110): the connections kept, and
those a processing task is started for. -/
def keep (e a : Nat → Bool) : List Nat → List Nat × List Nat
  | [] => ([], [])
  | c :: cs =>
    let r := keep e a cs
    if e c then (c :: r.1, r.2)
    else if a c then (c :: r.1, c :: r.2)
    else r

/-- One round (`manager.py` 94-122). -/
def Mgr.round (s : Mgr) (f : Found) : Mgr :=
  let r := keep f.enabled f.auto s.conns
  ⟨r.1 ++ f.fresh.toList, f.live ++ r.2 ++ f.fresh.toList⟩

/-- The manager after a history; it starts with no connection (78-79). -/
def Mgr.after (fs : List Found) : Mgr := fs.foldl Mgr.round ⟨[], []⟩

theorem keep_eq (e a : Nat → Bool) (cs : List Nat) :
    keep e a cs = (cs.filter (fun c => e c || a c), cs.filter (fun c => !e c && a c)) := by
  induction cs with
  | nil => rfl
  | cons c cs ih =>
    simp only [keep, ih, List.filter_cons]
    cases e c <;> cases a c <;> simp

/-- C52: a connection leaves the manager in a round exactly when it is
disabled and does not restart by itself; the others stay, in their order. -/
theorem C52_dropped (s : Mgr) (f : Found) (c : Nat) (hc : c ∈ s.conns)
    (hf : f.fresh ≠ some c) :
    c ∉ (s.round f).conns ↔ f.enabled c = false ∧ f.auto c = false := by
  simp only [Mgr.round, keep_eq, List.mem_append, List.mem_filter, Bool.or_eq_true,
    Option.mem_toList, not_or, not_and]
  constructor
  · rintro ⟨h, _⟩
    have := h hc
    simpa using this
  · rintro ⟨h1, h2⟩
    refine ⟨fun _ => by simp [h1, h2], hf⟩

/-- C52: a managed connection stays managed through any history in which it is
enabled or restarts by itself at every round. -/
theorem C52_kept (fs : List Found) (s : Mgr) (c : Nat) (hc : c ∈ s.conns)
    (hk : ∀ f ∈ fs, f.enabled c = true ∨ f.auto c = true) :
    c ∈ (fs.foldl Mgr.round s).conns := by
  induction fs generalizing s with
  | nil => exact hc
  | cons f fs ih =>
    apply ih _ _ (fun g hg => hk g (List.mem_cons_of_mem _ hg))
    simp only [Mgr.round, keep_eq, List.mem_append, List.mem_filter, Bool.or_eq_true]
    exact Or.inl ⟨hc, hk f List.mem_cons_self⟩

/-- C52: every new connection is managed and given a processing task. -/
theorem C52_accepted (s : Mgr) (f : Found) (c : Nat) (h : f.fresh = some c) :
    c ∈ (s.round f).conns ∧ c ∈ (s.round f).tasks := by
  simp [Mgr.round, h]

/-- C52: a task is only ever started for a connection the manager knows that
is disabled and restarts by itself, or for the new one; the tasks already
running are left alone. -/
theorem C52_started (s : Mgr) (f : Found) :
    ∃ started, (s.round f).tasks = f.live ++ started ∧
      ∀ c, c ∈ started ↔
        (c ∈ s.conns ∧ f.enabled c = false ∧ f.auto c = true) ∨ f.fresh = some c := by
  refine ⟨s.conns.filter (fun c => !f.enabled c && f.auto c) ++ f.fresh.toList, ?_, ?_⟩
  · simp [Mgr.round, keep_eq, List.append_assoc]
  · intro c
    simp [List.mem_filter]

/-- A history in which completed tasks leave (the live ones are a part of the
manager's), every new connection is one not seen before, and a round finds no
task still running for a disabled connection that restarts by itself. The last
is what the code does not check. -/
def Calm : Mgr → List Nat → List Found → Prop
  | _, _, [] => True
  | s, seen, f :: fs =>
    f.live.Sublist s.tasks ∧
    (∀ c, f.fresh = some c → c ∉ seen) ∧
    (∀ c ∈ s.conns, f.enabled c = false → f.auto c = true → c ∉ f.live) ∧
    Calm (s.round f) (f.fresh.toList ++ seen) fs

/-- C52: in a calm history no two tasks process the same connection. -/
theorem C52_single_partial (fs : List Found) (h : Calm ⟨[], []⟩ [] fs) :
    (Mgr.after fs).tasks.Nodup ∧ (Mgr.after fs).conns.Nodup := by
  have key : ∀ (fs : List Found) (s : Mgr) (seen : List Nat),
      s.tasks.Nodup → s.conns.Nodup → (∀ c ∈ s.tasks, c ∈ seen) → (∀ c ∈ s.conns, c ∈ seen) →
      Calm s seen fs →
      (fs.foldl Mgr.round s).tasks.Nodup ∧ (fs.foldl Mgr.round s).conns.Nodup := by
    intro fs
    induction fs with
    | nil => intro s seen h1 h2 _ _ _; exact ⟨h1, h2⟩
    | cons f fs ih =>
      intro s seen h1 h2 h3 h4 ⟨hl, hn, hb, hr⟩
      have hlive : ∀ c ∈ f.live, c ∈ seen := fun c hc => h3 c (hl.subset hc)
      refine ih (s.round f) (f.fresh.toList ++ seen) ?_ ?_ ?_ ?_ hr
      · simp only [Mgr.round, keep_eq]
        rw [List.nodup_append, List.nodup_append]
        refine ⟨⟨hl.nodup h1, h2.filter _, ?_⟩, ?_, ?_⟩
        · intro a ha b hb' hab
          subst hab
          rw [List.mem_filter] at hb'
          simp only [Bool.and_eq_true, Bool.not_eq_true'] at hb'
          exact hb a hb'.1 hb'.2.1 hb'.2.2 ha
        · cases f.fresh <;> simp
        · intro a ha b hb' hab
          subst hab
          rw [Option.mem_toList] at hb'
          refine hn a hb' ?_
          rcases List.mem_append.mp ha with ha | ha
          · exact hlive a ha
          · exact h4 a (List.mem_filter.mp ha).1
      · simp only [Mgr.round, keep_eq]
        rw [List.nodup_append]
        refine ⟨h2.filter _, ?_, ?_⟩
        · cases f.fresh <;> simp
        · intro a ha b hb' hab
          subst hab
          rw [Option.mem_toList] at hb'
          exact hn a hb' (h4 a (List.mem_filter.mp ha).1)
      · intro c hc
        simp only [Mgr.round, keep_eq, List.mem_append, List.mem_filter] at hc
        rw [List.mem_append]
        rcases hc with (hc | hc) | hc
        · exact Or.inr (hlive c hc)
        · exact Or.inr (h4 c hc.1)
        · exact Or.inl hc
      · intro c hc
        simp only [Mgr.round, keep_eq, List.mem_append, List.mem_filter] at hc
        rw [List.mem_append]
        rcases hc with hc | hc
        · exact Or.inr (h4 c hc.1)
        · exact Or.inl hc
  exact key fs ⟨[], []⟩ [] List.nodup_nil List.nodup_nil (fun c hc => (by cases hc))
    (fun c hc => (by cases hc)) h

/-- A calm history: two connections arrive, the first is lost, its task
completes and it is restarted. -/
def calmSample : List Found :=
  [⟨fun _ => true, fun _ => true, [], some 1⟩, ⟨fun _ => true, fun _ => true, [1], some 2⟩,
   ⟨fun c => c == 2, fun _ => true, [2], none⟩]

example : Calm ⟨[], []⟩ [] calmSample ∧ Mgr.after calmSample = ⟨[1, 2], [2, 1]⟩ := by
  constructor
  · simp only [calmSample, Calm]
    refine ⟨List.Sublist.refl _, ?_, ?_, ?_, ?_, ?_, ?_, ?_, ?_, trivial⟩
    · intro c _ hc; cases hc
    · intro c hc; cases hc
    · exact List.Sublist.refl _
    · intro c h hc; cases h; revert hc; decide +kernel
    · intro c _ h; cases h
    · decide +kernel
    · intro c h; cases h
    · decide +kernel
  · decide +kernel

/-- C52, one task per connection is false of the code: while a connection that
restarts by itself is disabled and its task is still running (closing down, or
waiting in its back-off), each further round starts another task for it. After
`n` rounds there are `n` more. -/
theorem C52_single_fails (fs : List Found) (s : Mgr) (c : Nat) (hs : c ∈ s.conns)
    (hd : ∀ f ∈ fs, f.enabled c = false ∧ f.auto c = true)
    (hlive : ∀ (before : List Found) (f : Found) (rest : List Found), fs = before ++ f :: rest →
      f.live = (before.foldl Mgr.round s).tasks) :
    s.tasks.count c + fs.length ≤ (fs.foldl Mgr.round s).tasks.count c := by
  induction fs generalizing s with
  | nil => simp
  | cons f fs ih =>
    have hf := hd f List.mem_cons_self
    have hmem : c ∈ (s.round f).conns := by
      simp only [Mgr.round, keep_eq, List.mem_append, List.mem_filter, Bool.or_eq_true]
      exact Or.inl ⟨hs, Or.inr hf.2⟩
    have h1 := ih (s.round f) hmem (fun g hg => hd g (List.mem_cons_of_mem _ hg))
      (fun before g rest he => by
        have := hlive (f :: before) g rest (by rw [he]; rfl)
        exact this)
    have h0 : f.live = s.tasks := hlive [] f fs rfl
    have h2 : s.tasks.count c + 1 ≤ (s.round f).tasks.count c := by
      simp only [Mgr.round, keep_eq, List.count_append, h0]
      have : 1 ≤ (s.conns.filter (fun c => !f.enabled c && f.auto c)).count c := by
        rw [Nat.one_le_iff_ne_zero, Nat.ne_zero_iff_zero_lt, List.count_pos_iff]
        rw [List.mem_filter]
        exact ⟨hs, by simp [hf.1, hf.2]⟩
      omega
    simp only [List.length_cons, List.foldl_cons]
    omega

/-- Three other connections arrive while connection 0 is down: it has four
tasks. -/
example : (Mgr.after
    [⟨fun _ => true, fun _ => true, [], some 0⟩,
     ⟨fun c => c != 0, fun _ => true, [0], some 1⟩,
     ⟨fun c => c != 0, fun _ => true, [0, 0, 1], some 2⟩,
     ⟨fun c => c != 0, fun _ => true, [0, 0, 1, 0, 2], some 3⟩]).tasks.count 0 = 4 := by
  decide +kernel

end Verif.Net
