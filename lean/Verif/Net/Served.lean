import Verif.Base
/-!
C122: the connections a websocket server accepts: `server_handler` of `net/websocket/connection.py` 118–164 with
`_handle_connection_closed` 57–67 and `close` 87–89, the loop of `net/manager.py` 67–132, and what `process` of
`net/connection.py` 269–339 does for a websocket connection, whose `restart` (223–228) always raises.

The library runs one handler for every connection and closes the connection when its handler returns or raises.
All interleavings of the handlers, the manager's rounds, the processing tasks and the peers. Not here: messages
(C84), the one second the manager grants at the end (C104).
-/
namespace Verif.Served
open Verif

/-- Where the handler of a connection is. -/
inductive Phase where
  /-- there is no such connection yet -/
  | none
  /-- `await init(conn)` -/
  | init
  /-- queued for the manager, waiting for the two events -/
  | waiting
  /-- returned or raised -/
  | over
deriving DecidableEq

structure Conn where
  phase : Phase
  /-- the protocol is open at our end -/
  isOpen : Bool
  enabled : Bool
  /-- the channel `auto_restart` -/
  auto : Bool
  /-- the peer has closed its end -/
  gone : Bool
  /-- the reading task runs; it ends with an exception if a handler of messages raises -/
  reader : Bool
  /-- processing tasks started and those not finished -/
  starts : Nat
  live : Nat
  /-- `init` gave false or raised -/
  refused : Bool
deriving DecidableEq

/-- `Connection.__init__`: enabled (connection.py 95); `auto_restart` is false by default. -/
def Conn.new : Conn := ⟨.init, true, true, false, false, false, 0, 0, false⟩
def Conn.absent : Conn := ⟨.none, false, false, false, false, false, 0, 0, false⟩

structure Srv where
  conn : Nat → Conn
  /-- `manager.queue` -/
  queue : List Nat
  /-- `_conns` -/
  conns : List Nat
  stop : Bool
  /-- the loop of `manage` runs -/
  managing : Bool
  /-- a processing task has completed since the last round -/
  woken : Bool
  /-- connections `init` accepted and connections the manager took, in order -/
  accepted : List Nat
  taken : List Nat

def Srv.new : Srv := ⟨fun _ => .absent, [], [], false, true, false, [], []⟩

def Srv.upd (s : Srv) (c : Nat) (f : Conn → Conn) : Srv :=
  { s with conn := fun d => if d = c then f (s.conn d) else s.conn d }

/-- `process`, connection.py 269–313: a disabled connection gets no reading task. -/
def Conn.start (x : Conn) : Conn :=
  { x with starts := x.starts + 1, live := x.live + 1, reader := x.reader || x.enabled }

/-- The filter over `_conns`, manager.py 97–110: kept if enabled or if it is to restart. -/
def Srv.kept (s : Srv) : List Nat := s.conns.filter fun c => (s.conn c).enabled || (s.conn c).auto

/-- Those to restart. -/
def Srv.again (s : Srv) : List Nat := s.conns.filter fun c => !(s.conn c).enabled && (s.conn c).auto

/-- One round of `manage`, manager.py 82–122, once something it waits for is there: a processing task for every
occurrence of a connection to restart, then the next connection of the queue. -/
def Srv.round (s : Srv) : Srv :=
  if s.managing && (s.woken || !s.queue.isEmpty || s.stop) then
    let s1 := { s with conn := fun d => Nat.repeat Conn.start (s.again.count d) (s.conn d), conns := s.kept, woken := false }
    let s2 := match s1.queue with
      | [] => s1
      | c :: q => { s1.upd c Conn.start with queue := q, conns := s1.conns ++ [c], taken := s1.taken ++ [c] }
    { s2 with managing := !s2.stop }
  else s

inductive Ev where
  /-- a peer connects: the library starts the handler (130–133) -/
  | connect (c : Nat)
  /-- `init` ends: accepts, or refuses or raises (134) -/
  | inited (c : Nat) (ok : Bool)
  /-- a command, a failed `async_init`, a handler of messages that gave false -/
  | disable (c : Nat)
  /-- `set auto_restart b` -/
  | setAuto (c : Nat) (b : Bool)
  /-- the peer closes -/
  | peerCloses (c : Nat)
  /-- the reading task finds the connection closed (57–75) -/
  | readClosed (c : Nat)
  /-- a writing task finds it closed -/
  | writeClosed (c : Nat)
  /-- a handler of messages raises in the reading task (connection.py 333–335) -/
  | crash (c : Nat)
  /-- a processing task of a disabled connection ends (connection.py 313–319, or `restart` raises) -/
  | finish (c : Nat)
  /-- the handler's wait ends (147–157) -/
  | wake (c : Nat)
  | stop
  | round

def step (s : Srv) : Ev → Srv
  | .connect c => if (s.conn c).phase = .none then s.upd c fun _ => .new else s
  | .inited c ok =>
    if (s.conn c).phase = .init then
      if ok then { s.upd c fun x => { x with phase := .waiting } with queue := s.queue ++ [c], accepted := s.accepted ++ [c] }
      else s.upd c fun x => { x with phase := .over, isOpen := false, refused := true }
    else s
  | .disable c => if (s.conn c).phase = .none then s else s.upd c fun x => { x with enabled := false }
  | .setAuto c b => s.upd c fun x => { x with auto := b }
  | .peerCloses c => s.upd c fun x => { x with gone := true }
  | .readClosed c =>
    if (s.conn c).gone && (s.conn c).reader then s.upd c fun x => { x with enabled := false, reader := false } else s
  | .writeClosed c =>
    if (s.conn c).gone && 0 < (s.conn c).live then s.upd c fun x => { x with enabled := false, reader := false } else s
  | .crash c => if (s.conn c).reader then s.upd c fun x => { x with reader := false } else s
  | .finish c =>
    if 0 < (s.conn c).live ∧ (s.conn c).enabled = false then
      { s.upd c fun x => { x with live := x.live - 1, isOpen := false, reader := false } with woken := true }
    else s
  | .wake c =>
    if (s.conn c).phase = .waiting ∧ ((s.conn c).enabled = false ∨ s.stop = true) then
      s.upd c fun x => { x with phase := .over, isOpen := false }
    else s
  | .stop => { s with stop := true }
  | .round => s.round

def run (s : Srv) (t : List Ev) : Srv := t.foldl step s

/-! ### Theorems -/

theorem upd_same (s : Srv) (c : Nat) (f : Conn → Conn) : (s.upd c f).conn c = f (s.conn c) := by simp [Srv.upd]

theorem upd_other (s : Srv) (c d : Nat) (f : Conn → Conn) (h : d ≠ c) : (s.upd c f).conn d = s.conn d := by
  simp [Srv.upd, h]

theorem start_repeat (n : Nat) (x : Conn) :
    (Nat.repeat Conn.start n x).phase = x.phase ∧ (Nat.repeat Conn.start n x).isOpen = x.isOpen ∧
    (Nat.repeat Conn.start n x).enabled = x.enabled ∧ (Nat.repeat Conn.start n x).auto = x.auto ∧
    (Nat.repeat Conn.start n x).gone = x.gone ∧ (Nat.repeat Conn.start n x).refused = x.refused ∧
    (Nat.repeat Conn.start n x).starts = x.starts + n ∧ (Nat.repeat Conn.start n x).live = x.live + n ∧
    (x.enabled = false → (Nat.repeat Conn.start n x).reader = x.reader) := by
  induction n with
  | zero => simp [Nat.repeat]
  | succ n ih =>
    obtain ⟨h1, h2, h3, h4, h5, h6, h7, h8, h9⟩ := ih
    refine ⟨h1, h2, h3, h4, h5, h6, ?_, ?_, ?_⟩
    · show (Nat.repeat Conn.start n x).starts + 1 = _
      omega
    · show (Nat.repeat Conn.start n x).live + 1 = _
      omega
    · intro he
      show ((Nat.repeat Conn.start n x).reader || (Nat.repeat Conn.start n x).enabled) = _
      rw [h9 he, h3, he, Bool.or_false]

/-- What a round leaves of a connection. -/
theorem round_conn (s : Srv) (d : Nat) :
    ∃ n, s.round.conn d = Nat.repeat Conn.start n (s.conn d) ∧
      (n = 0 ∨ d ∈ s.again ∨ (s.queue.head? = some d)) := by
  unfold Srv.round
  split
  · dsimp only
    cases hq : s.queue with
    | nil =>
      refine ⟨s.again.count d, rfl, ?_⟩
      by_cases h : d ∈ s.again
      · exact .inr (.inl h)
      · exact .inl (List.count_eq_zero.mpr h)
    | cons c q =>
      by_cases hd : d = c
      · subst hd
        refine ⟨s.again.count d + 1, ?_, .inr (.inr rfl)⟩
        simp [Srv.upd, Nat.repeat]
      · refine ⟨s.again.count d, ?_, ?_⟩
        · simp [Srv.upd, hd]
        · by_cases h : d ∈ s.again
          · exact .inr (.inl h)
          · exact .inl (List.count_eq_zero.mpr h)
  · exact ⟨0, rfl, .inl rfl⟩

/-- What holds in every state. -/
structure Inv (s : Srv) : Prop where
  flow : s.accepted = s.taken ++ s.queue
  once : s.accepted.Nodup
  acc : ∀ c, c ∈ s.accepted → ((s.conn c).phase = .waiting ∨ (s.conn c).phase = .over) ∧ (s.conn c).refused = false
  wait : ∀ c, (s.conn c).phase = .waiting → c ∈ s.accepted
  shut : ∀ c, ((s.conn c).phase = .over ∨ ((s.conn c).isOpen = false ∧ (s.conn c).phase ≠ .none)) →
    (s.conn c).refused = true ∨ (s.conn c).enabled = false ∨ s.stop = true
  known : ∀ c ∈ s.conns, c ∈ s.taken
  uniq : s.conns.Nodup
  read : ∀ c, (s.conn c).reader = true → c ∈ s.taken
  lived : ∀ c, 0 < (s.conn c).live → c ∈ s.taken
  none : ∀ c, (s.conn c).phase = .none → (s.conn c).enabled = false ∧ (s.conn c).refused = false
  fresh : ∀ c, (s.conn c).phase = .init → (s.conn c).refused = false

theorem inv_new : Inv Srv.new :=
  ⟨rfl, List.nodup_nil, fun _ h => (List.not_mem_nil h).elim, fun _ h => (nomatch h),
    fun _ _ => .inr (.inl rfl), fun _ h => (List.not_mem_nil h).elim, List.nodup_nil,
    fun _ h => (nomatch h), fun _ h => absurd h (Nat.lt_irrefl 0), fun _ _ => ⟨rfl, rfl⟩, fun _ _ => rfl⟩

/-- Changes of one connection that leave the lists alone. -/
theorem inv_upd {s : Srv} (h : Inv s) (c : Nat) (f : Conn → Conn) (w : Bool)
    (h1 : (f (s.conn c)).phase = (s.conn c).phase ∨ ((s.conn c).phase = .waiting ∧ (f (s.conn c)).phase = .over) ∨
      ((s.conn c).phase = .init ∧ (f (s.conn c)).phase = .over) ∨ ((s.conn c).phase = .none ∧ (f (s.conn c)).phase = .init))
    (h2 : (f (s.conn c)).phase = .over ∨ ((f (s.conn c)).isOpen = false ∧ (f (s.conn c)).phase ≠ .none) →
      (f (s.conn c)).refused = true ∨ (f (s.conn c)).enabled = false ∨ s.stop = true)
    (h3 : (f (s.conn c)).refused = (s.conn c).refused ∨ (s.conn c).phase = .init ∨ (s.conn c).phase = .none)
    (h4 : (f (s.conn c)).reader = true → (s.conn c).reader = true)
    (h5 : 0 < (f (s.conn c)).live → 0 < (s.conn c).live)
    (h6 : (f (s.conn c)).phase = .none → (f (s.conn c)).enabled = false ∧ (f (s.conn c)).refused = false)
    (h7 : (f (s.conn c)).phase = .init → (f (s.conn c)).refused = false) :
    Inv { s.upd c f with woken := w } := by
  have e : ∀ d, ({ s.upd c f with woken := w } : Srv).conn d = if d = c then f (s.conn c) else s.conn d := by
    intro d
    show (s.upd c f).conn d = _
    by_cases hd : d = c
    · subst hd; rw [upd_same, if_pos rfl]
    · rw [upd_other _ _ _ _ hd, if_neg hd]
  refine ⟨h.flow, h.once, ?_, ?_, ?_, h.known, h.uniq, ?_, ?_, ?_, ?_⟩
  · intro d hd
    rw [e d]
    by_cases hc : d = c
    · subst hc
      rw [if_pos rfl]
      have := h.acc d hd
      grind
    · rw [if_neg hc]; exact h.acc d hd
  · intro d hd
    rw [e d] at hd
    by_cases hc : d = c
    · subst hc
      rw [if_pos rfl] at hd
      have := h.wait d
      show d ∈ s.accepted
      grind
    · rw [if_neg hc] at hd; exact h.wait d hd
  · intro d hd
    rw [e d] at hd ⊢
    by_cases hc : d = c
    · subst hc
      rw [if_pos rfl] at hd ⊢
      exact h2 hd
    · rw [if_neg hc] at hd ⊢; exact h.shut d hd
  · intro d hd
    rw [e d] at hd
    by_cases hc : d = c
    · subst hc
      rw [if_pos rfl] at hd
      exact h.read d (h4 hd)
    · rw [if_neg hc] at hd; exact h.read d hd
  · intro d hd
    rw [e d] at hd
    by_cases hc : d = c
    · subst hc
      rw [if_pos rfl] at hd
      exact h.lived d (h5 hd)
    · rw [if_neg hc] at hd; exact h.lived d hd
  · intro d hd
    rw [e d] at hd ⊢
    by_cases hc : d = c
    · subst hc
      rw [if_pos rfl] at hd ⊢
      exact h6 hd
    · rw [if_neg hc] at hd ⊢; exact h.none d hd
  · intro d hd
    rw [e d] at hd ⊢
    by_cases hc : d = c
    · subst hc
      rw [if_pos rfl] at hd ⊢
      exact h7 hd
    · rw [if_neg hc] at hd ⊢; exact h.fresh d hd

theorem inv_upd' {s : Srv} (h : Inv s) (c : Nat) (f : Conn → Conn)
    (h1 : (f (s.conn c)).phase = (s.conn c).phase ∨ ((s.conn c).phase = .waiting ∧ (f (s.conn c)).phase = .over) ∨
      ((s.conn c).phase = .init ∧ (f (s.conn c)).phase = .over) ∨ ((s.conn c).phase = .none ∧ (f (s.conn c)).phase = .init))
    (h2 : (f (s.conn c)).phase = .over ∨ ((f (s.conn c)).isOpen = false ∧ (f (s.conn c)).phase ≠ .none) →
      (f (s.conn c)).refused = true ∨ (f (s.conn c)).enabled = false ∨ s.stop = true)
    (h3 : (f (s.conn c)).refused = (s.conn c).refused ∨ (s.conn c).phase = .init ∨ (s.conn c).phase = .none)
    (h4 : (f (s.conn c)).reader = true → (s.conn c).reader = true)
    (h5 : 0 < (f (s.conn c)).live → 0 < (s.conn c).live)
    (h6 : (f (s.conn c)).phase = .none → (f (s.conn c)).enabled = false ∧ (f (s.conn c)).refused = false)
    (h7 : (f (s.conn c)).phase = .init → (f (s.conn c)).refused = false) :
    Inv (s.upd c f) := inv_upd h c f s.woken h1 h2 h3 h4 h5 h6 h7

/-- The lists after a round. -/
theorem round_lists (s : Srv) :
    (s.round = s) ∨
    (s.round.stop = s.stop ∧ s.round.accepted = s.accepted ∧
      ((s.queue = [] ∧ s.round.queue = [] ∧ s.round.conns = s.kept ∧ s.round.taken = s.taken) ∨
       ∃ c q, s.queue = c :: q ∧ s.round.queue = q ∧ s.round.conns = s.kept ++ [c] ∧ s.round.taken = s.taken ++ [c])) := by
  unfold Srv.round
  split
  · right
    dsimp only
    cases hq : s.queue with
    | nil => exact ⟨rfl, rfl, .inl ⟨rfl, rfl, rfl, rfl⟩⟩
    | cons c q => exact ⟨rfl, rfl, .inr ⟨c, q, rfl, rfl, rfl, rfl⟩⟩
  · exact .inl rfl

theorem inv_round {s : Srv} (h : Inv s) : Inv s.round := by
  rcases round_lists s with e | ⟨e1, e2, e3⟩
  · rw [e]; exact h
  have hs : ∀ d, (s.round.conn d).phase = (s.conn d).phase ∧ (s.round.conn d).isOpen = (s.conn d).isOpen ∧
      (s.round.conn d).enabled = (s.conn d).enabled ∧ (s.round.conn d).refused = (s.conn d).refused := by
    intro d
    obtain ⟨n, hn, -⟩ := round_conn s d
    rw [hn]
    obtain ⟨a1, a2, a3, -, -, a6, -⟩ := start_repeat n (s.conn d)
    exact ⟨a1, a2, a3, a6⟩
  have hsub : ∀ c ∈ s.kept, c ∈ s.taken := fun c hc => h.known c (List.mem_filter.mp hc).1
  have hagain : ∀ c ∈ s.again, c ∈ s.taken := fun c hc => h.known c (List.mem_filter.mp hc).1
  have hk : s.kept.Nodup := h.uniq.filter _
  have hflow := h.flow
  have hmono : (∀ c ∈ s.taken, c ∈ s.round.taken) ∧ (∀ c, s.queue.head? = some c → c ∈ s.round.taken) := by
    rcases e3 with ⟨q1, -, -, q4⟩ | ⟨c, q, q1, -, -, q4⟩
    · rw [q4, q1]; exact ⟨fun _ h => h, fun _ h => by cases h⟩
    · rw [q4, q1]
      exact ⟨fun _ h => List.mem_append_left _ h, fun d h => by
        simp only [List.head?_cons, Option.some.injEq] at h
        simp [h]⟩
  have hconn : ∀ d, s.round.conn d = s.conn d ∨ d ∈ s.round.taken := by
    intro d
    obtain ⟨n, hn, h0⟩ := round_conn s d
    rcases h0 with h0 | h0 | h0
    · subst h0; exact .inl hn
    · exact .inr (hmono.1 d (hagain d h0))
    · exact .inr (hmono.2 d h0)
  refine ⟨?_, by rw [e2]; exact h.once, ?_, ?_, ?_, ?_, ?_, ?_, ?_, ?_, ?_⟩
  · rw [e2, h.flow]
    rcases e3 with ⟨q1, q2, -, q4⟩ | ⟨c, q, q1, q2, -, q4⟩
    · rw [q1, q2, q4]
    · rw [q1, q2, q4]; simp
  · intro c hc
    rw [e2] at hc
    rw [(hs c).1, (hs c).2.2.2]
    exact h.acc c hc
  · intro c hc
    rw [(hs c).1] at hc
    rw [e2]
    exact h.wait c hc
  · intro c hc
    rw [(hs c).1, (hs c).2.1] at hc
    rw [(hs c).2.2.1, (hs c).2.2.2, e1]
    exact h.shut c hc
  · intro c hc
    rcases e3 with ⟨q1, -, q3, q4⟩ | ⟨d, q, q1, -, q3, q4⟩
    · rw [q3] at hc; rw [q4]; exact hsub c hc
    · rw [q3] at hc; rw [q4]
      rcases List.mem_append.mp hc with hc | hc
      · exact List.mem_append_left _ (hsub c hc)
      · exact List.mem_append_right _ hc
  · rcases e3 with ⟨q1, -, q3, q4⟩ | ⟨d, q, q1, -, q3, q4⟩
    · rw [q3]; exact hk
    · rw [q3, List.nodup_append]
      refine ⟨hk, by simp, ?_⟩
      intro a ha b hb hab
      have hb' : b = d := by simpa using hb
      have ht := hsub a ha
      have ho := h.once
      rw [hflow, q1, List.nodup_append] at ho
      exact ho.2.2 a ht b (by simp [hb']) hab
  · intro c hc
    rcases hconn c with e | e
    · rw [e] at hc; exact hmono.1 c (h.read c hc)
    · exact e
  · intro c hc
    rcases hconn c with e | e
    · rw [e] at hc; exact hmono.1 c (h.lived c hc)
    · exact e
  · intro c hc
    rw [(hs c).1] at hc
    rw [(hs c).2.2.1, (hs c).2.2.2]
    exact h.none c hc
  · intro c hc
    rw [(hs c).1] at hc
    rw [(hs c).2.2.2]
    exact h.fresh c hc

theorem inv_accept {s : Srv} (h : Inv s) (c : Nat) (hp : (s.conn c).phase = .init) :
    Inv { s.upd c fun x => { x with phase := .waiting } with queue := s.queue ++ [c], accepted := s.accepted ++ [c] } := by
  have hn : c ∉ s.accepted := by
    intro hc
    rcases (h.acc c hc).1 with h' | h' <;> simp [hp] at h'
  have e : ∀ d, (({ s.upd c fun x => { x with phase := .waiting } with queue := s.queue ++ [c], accepted := s.accepted ++ [c] } : Srv).conn d) =
      if d = c then { s.conn c with phase := .waiting } else s.conn d := by
    intro d
    by_cases hd : d = c
    · subst hd; simp [Srv.upd]
    · simp [Srv.upd, hd]
  refine ⟨?_, ?_, ?_, ?_, ?_, h.known, h.uniq, ?_, ?_, ?_, ?_⟩
  · show s.accepted ++ [c] = s.taken ++ (s.queue ++ [c])
    rw [h.flow, List.append_assoc]
  · show (s.accepted ++ [c]).Nodup
    rw [List.nodup_append]
    refine ⟨h.once, by simp, ?_⟩
    intro a ha b hb hab
    have : b = c := by simpa using hb
    subst this; subst hab
    exact hn ha
  · intro d hd
    rw [e d]
    by_cases hc : d = c
    · rw [if_pos hc]
      exact ⟨.inl rfl, h.fresh c hp⟩
    · rw [if_neg hc]
      rcases List.mem_append.mp hd with hd | hd
      · exact h.acc d hd
      · exact absurd (List.mem_singleton.mp hd) hc
  · intro d hd
    show d ∈ s.accepted ++ [c]
    rw [e d] at hd
    by_cases hc : d = c
    · simp [hc]
    · rw [if_neg hc] at hd; exact List.mem_append_left _ (h.wait d hd)
  · intro d hd
    rw [e d] at hd ⊢
    by_cases hc : d = c
    · rw [if_pos hc] at hd ⊢
      rcases hd with hd | hd
      · cases hd
      · exact h.shut c (.inr ⟨hd.1, by rw [hp]; decide⟩)
    · rw [if_neg hc] at hd ⊢; exact h.shut d hd
  · intro d hd
    rw [e d] at hd
    by_cases hc : d = c
    · rw [if_pos hc] at hd; rw [hc]; exact h.read c hd
    · rw [if_neg hc] at hd; exact h.read d hd
  · intro d hd
    rw [e d] at hd
    by_cases hc : d = c
    · rw [if_pos hc] at hd; rw [hc]; exact h.lived c hd
    · rw [if_neg hc] at hd; exact h.lived d hd
  · intro d hd
    rw [e d] at hd ⊢
    by_cases hc : d = c
    · rw [if_pos hc] at hd; cases hd
    · rw [if_neg hc] at hd ⊢; exact h.none d hd
  · intro d hd
    rw [e d] at hd ⊢
    by_cases hc : d = c
    · rw [if_pos hc] at hd; cases hd
    · rw [if_neg hc] at hd ⊢; exact h.fresh d hd

theorem inv_step {s : Srv} (h : Inv s) (e : Ev) : Inv (step s e) := by
  cases e with
  | connect c =>
    dsimp only [step]
    split
    · rename_i hp
      refine inv_upd' h c _ (.inr (.inr (.inr ⟨hp, rfl⟩))) ?_ (.inr (.inr hp)) ?_ ?_ ?_ ?_ <;> simp [Conn.new]
    · exact h
  | inited c ok =>
    dsimp only [step]
    split
    · rename_i hp
      cases ok with
      | false =>
        simp only [Bool.false_eq_true, if_false]
        refine inv_upd' h c _ ?_ ?_ ?_ ?_ ?_ ?_ ?_
        · exact .inr (.inr (.inl ⟨hp, rfl⟩))
        · exact fun _ => .inl rfl
        · exact .inr (.inl hp)
        · exact fun h => h
        · exact fun h => h
        · exact fun h => nomatch h
        · exact fun h => nomatch h
      | true => exact inv_accept h c hp
    · exact h
  | disable c =>
    dsimp only [step]
    split
    · exact h
    · refine inv_upd' h c _ ?_ ?_ ?_ ?_ ?_ ?_ ?_
      · exact .inl rfl
      · exact fun _ => .inr (.inl rfl)
      · exact .inl rfl
      · exact fun h => h
      · exact fun h => h
      · exact fun hp => ⟨rfl, (h.none c hp).2⟩
      · exact h.fresh c
  | setAuto c b =>
    dsimp only [step]
    refine inv_upd' h c _ ?_ ?_ ?_ ?_ ?_ ?_ ?_
    · exact .inl rfl
    · exact h.shut c
    · exact .inl rfl
    · exact fun h => h
    · exact fun h => h
    · exact h.none c
    · exact h.fresh c
  | peerCloses c =>
    dsimp only [step]
    refine inv_upd' h c _ ?_ ?_ ?_ ?_ ?_ ?_ ?_
    · exact .inl rfl
    · exact h.shut c
    · exact .inl rfl
    · exact fun h => h
    · exact fun h => h
    · exact h.none c
    · exact h.fresh c
  | readClosed c =>
    dsimp only [step]
    split
    · exact inv_upd' h c _ (.inl rfl) (fun _ => .inr (.inl rfl)) (.inl rfl) (fun h => by cases h) (fun h => h)
        (fun hp => ⟨rfl, (h.none c hp).2⟩) (h.fresh c)
    · exact h
  | writeClosed c =>
    dsimp only [step]
    split
    · exact inv_upd' h c _ (.inl rfl) (fun _ => .inr (.inl rfl)) (.inl rfl) (fun h => by cases h) (fun h => h)
        (fun hp => ⟨rfl, (h.none c hp).2⟩) (h.fresh c)
    · exact h
  | crash c =>
    dsimp only [step]
    split
    · exact inv_upd' h c _ (.inl rfl) (h.shut c) (.inl rfl) (fun h => by cases h) (fun h => h) (h.none c) (h.fresh c)
    · exact h
  | finish c =>
    dsimp only [step]
    split
    · rename_i hc
      exact inv_upd h c _ true (.inl rfl) (fun _ => .inr (.inl hc.2)) (.inl rfl) (fun h => by cases h) (fun _ => hc.1) (h.none c) (h.fresh c)
    · exact h
  | wake c =>
    dsimp only [step]
    split
    · rename_i hc
      refine inv_upd' h c _ (.inr (.inl ⟨hc.1, rfl⟩)) (fun _ => .inr hc.2) (.inl rfl) (fun h => h) (fun h => h) ?_ ?_ <;> simp
    · exact h
  | stop =>
    exact ⟨h.flow, h.once, h.acc, h.wait, fun c hc => .inr (.inr rfl), h.known, h.uniq, h.read, h.lived, h.none, h.fresh⟩
  | round => exact inv_round h

theorem inv_run (t : List Ev) {s : Srv} (h : Inv s) : Inv (run s t) := by
  induction t generalizing s with
  | nil => exact h
  | cons e t ih => exact ih (inv_step h e)

theorem run_append (s : Srv) (a b : List Ev) : run s (a ++ b) = run (run s a) b := List.foldl_append

theorem round_stop (s : Srv) : s.round.stop = s.stop := by
  rcases round_lists s with e | ⟨e, -⟩
  · rw [e]
  · exact e

/-- The stop signal is set by `stop` only. -/
theorem step_stop (s : Srv) (e : Ev) (h : e ≠ .stop) : (step s e).stop = s.stop := by
  cases e with
  | stop => exact absurd rfl h
  | round => exact round_stop s
  | _ => simp only [step]; (repeat' split) <;> rfl

theorem run_stop (t : List Ev) (s : Srv) (h : .stop ∉ t) : (run s t).stop = s.stop := by
  induction t generalizing s with
  | nil => rfl
  | cons e t ih =>
    show (run (step s e) t).stop = _
    rw [ih _ (fun hm => h (List.mem_cons_of_mem _ hm)), step_stop s e (fun he => h (by rw [he]; exact List.mem_cons_self))]

/-- A refusal is one of `init`. -/
theorem run_refused (t : List Ev) (s : Srv) (c : Nat) (h : .inited c false ∉ t) (hr : (s.conn c).refused = false) :
    ((run s t).conn c).refused = false := by
  induction t generalizing s with
  | nil => exact hr
  | cons e t ih =>
    refine ih _ (fun hm => h (List.mem_cons_of_mem _ hm)) ?_
    have he : e ≠ .inited c false := fun he => h (by rw [he]; exact List.mem_cons_self)
    cases e with
    | round =>
      obtain ⟨n, hn, -⟩ := round_conn s c
      show (s.round.conn c).refused = _
      rw [hn, (start_repeat n _).2.2.2.2.2.1, hr]
    | stop => exact hr
    | inited d ok =>
      simp only [step]
      (repeat' split) <;> (try simp only [Srv.upd]) <;> (try split) <;> simp_all
    | connect d =>
      simp only [step]
      (repeat' split) <;> (try simp only [Srv.upd]) <;> (try split) <;> simp_all [Conn.new]
    | _ =>
      simp only [step]
      (repeat' split) <;> (try simp only [Srv.upd]) <;> (try split) <;> simp_all

/-- C122: the server closes a connection only if `init` refused it (or raised), if it was disabled, or if the server
stops. -/
theorem C122_kept (t : List Ev) (c : Nat) (hc : ((run .new t).conn c).phase ≠ .none)
    (h1 : .inited c false ∉ t) (h2 : ((run .new t).conn c).enabled = true) (h3 : .stop ∉ t) :
    ((run .new t).conn c).isOpen = true ∧
    (((run .new t).conn c).phase = .init ∨ ((run .new t).conn c).phase = .waiting) := by
  have h := inv_run t inv_new
  have hs : (run .new t).stop = false := run_stop t .new h3
  have hr := run_refused t .new c h1 rfl
  have hk := h.shut c
  rw [hr, h2, hs] at hk
  have hk' := fun h => (by simpa using hk h : False)
  refine ⟨?_, ?_⟩
  · cases ho : ((run .new t).conn c).isOpen with
    | true => rfl
    | false => exact (hk' (.inr ⟨ho, hc⟩)).elim
  · cases hp : ((run .new t).conn c).phase with
    | none => exact absurd hp hc
    | init => exact .inl rfl
    | waiting => exact .inr rfl
    | over => exact (hk' (.inl hp)).elim

/-- C122: the manager takes the accepted connections in their order, each once; refused ones never. -/
theorem C122_order (t : List Ev) :
    (run .new t).taken ++ (run .new t).queue = (run .new t).accepted ∧ (run .new t).accepted.Nodup ∧
    (∀ c ∈ (run .new t).taken, ((run .new t).conn c).refused = false) ∧
    (∀ c ∈ (run .new t).conns, c ∈ (run .new t).taken) ∧ (run .new t).conns.Nodup := by
  have h := inv_run t inv_new
  refine ⟨h.flow.symm, h.once, ?_, h.known, h.uniq⟩
  intro c hc
  refine (h.acc c ?_).2
  rw [h.flow]
  exact List.mem_append_left _ hc

/-- Rounds of a history. -/
def rounds (t : List Ev) : Nat := (t.filter fun e => match e with | .round => true | _ => false).length

theorem step_managing (s : Srv) (e : Ev) (h : e ≠ .stop) (hs : s.stop = false) (hm : s.managing = true) :
    (step s e).managing = true := by
  cases e with
  | stop => exact absurd rfl h
  | round =>
    show s.round.managing = true
    unfold Srv.round
    split
    · dsimp only
      split <;> simp [Srv.upd, hs]
    · exact hm
  | _ => simp only [step]; (repeat' split) <;> exact hm

/-- What an event leaves of the queue. -/
theorem step_queue (s : Srv) (e : Ev) :
    (e ≠ .round → ∃ l, (step s e).queue = s.queue ++ l ∧ (step s e).taken = s.taken) ∧
    (e = .round → s.managing = true →
      (step s e).queue = s.queue.drop 1 ∧ (step s e).taken = s.taken ++ s.queue.take 1) := by
  refine ⟨fun he => ?_, ?_⟩
  · cases e with
    | round => exact absurd rfl he
    | inited c ok =>
      simp only [step]
      (repeat' split)
      · exact ⟨[c], rfl, rfl⟩
      · exact ⟨[], (List.append_nil _).symm, rfl⟩
      · exact ⟨[], (List.append_nil _).symm, rfl⟩
    | _ => dsimp only [step]; (repeat' split) <;> exact ⟨[], (List.append_nil _).symm, rfl⟩
  · rintro rfl hm
    show s.round.queue = _ ∧ s.round.taken = _
    unfold Srv.round
    cases hq : s.queue with
    | nil =>
      split
      · dsimp only
        exact ⟨rfl, (List.append_nil _).symm⟩
      · exact ⟨hq, (List.append_nil _).symm⟩
    | cons c q =>
      rw [if_pos (by simp [hm])]
      exact ⟨rfl, rfl⟩

/-- C122: the connection with `k` others before it in the queue has been taken after `k + 1` rounds, whatever
else happens but the stop. -/
theorem C122_progress (t : List Ev) (c k : Nat) (s : Srv) (hm : s.managing = true) (hs : s.stop = false)
    (hq : s.queue[k]? = some c) (h : .stop ∉ t) (hr : k < rounds t) : c ∈ (run s t).taken := by
  have mono : ∀ (t : List Ev) (s : Srv), s.managing = true → s.stop = false → .stop ∉ t → c ∈ s.taken → c ∈ (run s t).taken := by
    intro t
    induction t with
    | nil => intro s _ _ _ h; exact h
    | cons e t ih =>
      intro s hm hs h hc
      have he : e ≠ .stop := fun he => h (by rw [he]; exact List.mem_cons_self)
      refine ih (step s e) (step_managing s e he hs hm) (by rw [step_stop s e he, hs]) (fun hm => h (List.mem_cons_of_mem _ hm)) ?_
      by_cases hr : e = .round
      · rw [((step_queue s e).2 hr hm).2]
        exact List.mem_append_left _ hc
      · obtain ⟨l, -, e2⟩ := (step_queue s e).1 hr
        rw [e2]; exact hc
  induction t generalizing s k with
  | nil => simp [rounds] at hr
  | cons e t ih =>
    have he : e ≠ .stop := fun he => h (by rw [he]; exact List.mem_cons_self)
    have ht : Ev.stop ∉ t := fun hm => h (List.mem_cons_of_mem _ hm)
    have hm' := step_managing s e he hs hm
    have hs' : (step s e).stop = false := by rw [step_stop s e he, hs]
    by_cases hr' : e = .round
    · obtain ⟨q1, q2⟩ := (step_queue s e).2 hr' hm
      cases k with
      | zero =>
        refine mono t (step s e) hm' hs' ht ?_
        rw [q2]
        cases hqq : s.queue with
        | nil => rw [hqq] at hq; simp at hq
        | cons d q =>
          rw [hqq] at hq
          simp at hq
          simp [hq]
      | succ k =>
        refine ih k (step s e) hm' hs' ?_ ht ?_
        · rw [q1, List.getElem?_drop, Nat.add_comm]; exact hq
        · subst hr'
          simp [rounds] at hr
          exact hr
    · obtain ⟨l, q1, q2⟩ := (step_queue s e).1 hr'
      refine ih k (step s e) hm' hs' ?_ ht ?_
      · rw [q1]
        have hl : k < s.queue.length := (List.getElem?_eq_some_iff.mp hq).1
        rw [List.getElem?_append_left hl]; exact hq
      · have : rounds (e :: t) = rounds t := by
          cases e <;> first | rfl | exact absurd rfl hr'
        rw [this] at hr
        exact hr

/-- Histories in which nobody turns on the automatic restart of `c`. -/
theorem run_auto (t : List Ev) (s : Srv) (c : Nat) (h : .setAuto c true ∉ t) (ha : (s.conn c).auto = false) :
    ((run s t).conn c).auto = false := by
  induction t generalizing s with
  | nil => exact ha
  | cons e t ih =>
    refine ih _ (fun hm => h (List.mem_cons_of_mem _ hm)) ?_
    have he : e ≠ .setAuto c true := fun he => h (by rw [he]; exact List.mem_cons_self)
    cases e with
    | round =>
      obtain ⟨n, hn, -⟩ := round_conn s c
      show (s.round.conn c).auto = _
      rw [hn, (start_repeat n _).2.2.2.1, ha]
    | stop => exact ha
    | setAuto d b =>
      simp only [step, Srv.upd]
      split
      · rename_i hd
        subst hd
        cases b with
        | false => rfl
        | true => exact absurd rfl he
      · exact ha
    | connect d =>
      simp only [step]
      (repeat' split) <;> (try simp only [Srv.upd]) <;> (try split) <;> simp_all [Conn.new]
    | _ =>
      simp only [step]
      (repeat' split) <;> (try simp only [Srv.upd]) <;> (try split) <;> simp_all

/-- Only a round starts tasks and takes connections. -/
theorem step_starts (s : Srv) (c : Nat) (e : Ev) (h1 : e ≠ .round) (h2 : ∀ d, e ≠ .connect d) :
    ((step s e).conn c).starts = (s.conn c).starts ∧ (step s e).taken = s.taken := by
  cases e with
  | round => exact absurd rfl h1
  | connect d => exact absurd rfl (h2 d)
  | stop => exact ⟨rfl, rfl⟩
  | _ =>
    dsimp only [step]
    (repeat' split) <;> first | exact ⟨rfl, rfl⟩ | (refine ⟨?_, rfl⟩; simp only [Srv.upd]; split <;> rfl)

/-- C122: a connection is processed once: one task is started for it when it is taken, unless its automatic restart
is turned on. -/
theorem C122_once (t : List Ev) (c : Nat) (h : .setAuto c true ∉ t) :
    ((run .new t).conn c).starts = if c ∈ (run .new t).taken then 1 else 0 := by
  have key : ∀ (t : List Ev) (s : Srv), Inv s → (s.conn c).auto = false → .setAuto c true ∉ t →
      (s.conn c).starts = (if c ∈ s.taken then 1 else 0) →
      ((run s t).conn c).starts = if c ∈ (run s t).taken then 1 else 0 := by
    intro t
    induction t with
    | nil => intro s _ _ _ h; exact h
    | cons e t ih =>
      intro s hi ha hn hs
      have he : e ≠ .setAuto c true := fun he => hn (by rw [he]; exact List.mem_cons_self)
      refine ih (step s e) (inv_step hi e) ?_ (fun hm => hn (List.mem_cons_of_mem _ hm)) ?_
      · exact run_auto [e] s c (by simpa using fun h => he h.symm) ha
      · cases e with
        | round =>
          show (s.round.conn c).starts = if c ∈ s.round.taken then 1 else 0
          have hag : s.again.count c = 0 := by
            rw [List.count_eq_zero]
            intro hc
            have := (List.mem_filter.mp hc).2
            rw [ha] at this
            simp at this
          unfold Srv.round
          split
          · dsimp only
            cases hq : s.queue with
            | nil =>
              show (Nat.repeat Conn.start (s.again.count c) (s.conn c)).starts = if c ∈ s.taken then 1 else 0
              rw [hag]
              exact hs
            | cons d q =>
              have hdn : d ∉ s.taken := by
                intro hd
                have := hi.once
                rw [hi.flow, hq, List.nodup_append] at this
                exact this.2.2 d hd d List.mem_cons_self rfl
              simp only [Srv.upd, List.mem_append, List.mem_singleton]
              by_cases hd : c = d
              · subst hd
                rw [if_pos rfl, hag, if_pos (.inr rfl)]
                rw [if_neg hdn] at hs
                show (s.conn c).starts + 1 = 1
                rw [hs]
              · rw [if_neg hd, hag]
                show (s.conn c).starts = _
                rw [hs]
                simp [hd]
          · exact hs
        | stop => exact hs
        | connect d =>
          simp only [step]
          split
          · rename_i hp
            have ht : d ∉ s.taken := by
              intro hd
              have := (hi.acc d (by rw [hi.flow]; exact List.mem_append_left _ hd)).1
              rw [hp] at this
              simp at this
            simp only [Srv.upd]
            split
            · rename_i hd
              subst hd
              rw [if_neg ht]
              rfl
            · exact hs
          · exact hs
        | _ =>
          rw [(step_starts s c _ (by simp) (by simp)).1, (step_starts s c _ (by simp) (by simp)).2]
          exact hs
  exact key t .new inv_new rfl h rfl

/-- C122: a disabled connection that does not restart has left the manager after a round. -/
theorem C122_leaves (t : List Ev) (c : Nat) (hc : c ∈ (run .new t).taken) (hd : ((run .new t).conn c).enabled = false)
    (ha : ((run .new t).conn c).auto = false) (hm : (run .new t).managing = true)
    (hw : (run .new t).woken = true ∨ (run .new t).queue ≠ [] ∨ (run .new t).stop = true) :
    c ∉ (run .new (t ++ [.round])).conns := by
  have h := inv_run t inv_new
  rw [run_append]
  show c ∉ (run .new t).round.conns
  generalize run Srv.new t = s at h hc hd ha hm hw
  have hk : c ∉ s.kept := by
    intro hk
    have := (List.mem_filter.mp hk).2
    rw [hd, ha] at this
    cases this
  unfold Srv.round
  rw [if_pos (by
    rcases hw with hw | hw | hw
    · simp [hm, hw]
    · simp [hm, hw]
    · simp [hm, hw])]
  dsimp only
  cases hq : s.queue with
  | nil => exact hk
  | cons d q =>
    show c ∉ s.kept ++ [d]
    intro hcc
    rcases List.mem_append.mp hcc with hcc | hcc
    · exact hk hcc
    · have he : c = d := by simpa using hcc
      have := h.once
      rw [h.flow, hq, List.nodup_append] at this
      exact this.2.2 c hc d List.mem_cons_self he

/-- C122: once the stop signal is set, every handler that gets its turn returns, and the library closes the
connection. -/
theorem C122_ends (t : List Ev) (ht : .stop ∈ t) (c : Nat) (hc : c ∈ (run .new t).accepted) :
    ((run .new (t ++ [.wake c])).conn c).phase = .over ∧
    (((run .new t).conn c).phase = .waiting → ((run .new (t ++ [.wake c])).conn c).isOpen = false) := by
  have h := inv_run t inv_new
  have mono : ∀ (t : List Ev) (s : Srv), s.stop = true → (run s t).stop = true := by
    intro t
    induction t with
    | nil => intro s h; exact h
    | cons e t ih =>
      intro s h
      refine ih _ ?_
      by_cases he : e = .stop
      · subst he; rfl
      · rw [step_stop s e he]; exact h
  have hs : (run .new t).stop = true := by
    obtain ⟨a, b, rfl⟩ := List.append_of_mem ht
    rw [run_append]
    exact mono b _ rfl
  rw [run_append]
  show ((step (run .new t) (.wake c)).conn c).phase = _ ∧ _
  generalize run Srv.new t = s at h hc hs
  have hw : step s (.wake c) = if (s.conn c).phase = .waiting ∧ ((s.conn c).enabled = false ∨ s.stop = true) then
      s.upd c fun x => { x with phase := .over, isOpen := false } else s := rfl
  rcases (h.acc c hc).1 with hp | hp
  · rw [hw, if_pos ⟨hp, .inr hs⟩, upd_same]
    refine ⟨rfl, fun _ => ?_⟩
    show ((step s (.wake c)).conn c).isOpen = _
    rw [hw, if_pos ⟨hp, .inr hs⟩, upd_same]
  · rw [hw, if_neg (by simp [hp])]
    exact ⟨hp, fun h => by rw [hp] at h; cases h⟩

/-- C122: the manager sleeps when there is nothing to do. As long as nothing else happens, it goes round once for every
connection in the queue and once for the wake-up, and then no more. -/
theorem C122_idle (s : Srv) (hm : s.managing = true) (hs : s.stop = false) :
    let s' := run s (List.replicate (s.queue.length + 1) .round)
    s'.round = s' ∧ s'.queue = [] ∧ s'.woken = false := by
  suffices h : ∀ (q : List Nat) (s : Srv), s.queue = q → s.managing = true → s.stop = false →
      (run s (List.replicate (q.length + 1) .round)).round = run s (List.replicate (q.length + 1) .round) ∧
      (run s (List.replicate (q.length + 1) .round)).queue = [] ∧
      (run s (List.replicate (q.length + 1) .round)).woken = false from h s.queue s rfl hm hs
  have still : ∀ s : Srv, s.queue = [] → s.stop = false → s.woken = false → s.round = s := by
    intro s h1 h2 h3
    simp [Srv.round, h1, h2, h3]
  intro q
  induction q with
  | nil =>
    intro s hq hm hs
    show s.round.round = s.round ∧ s.round.queue = [] ∧ s.round.woken = false
    have h : s.round.queue = [] ∧ s.round.stop = false ∧ s.round.woken = false := by
      cases hw : s.woken with
      | false => rw [still s hq hs hw]; exact ⟨hq, hs, hw⟩
      | true => simp [Srv.round, hq, hs, hw, hm]
    exact ⟨still _ h.1 h.2.1 h.2.2, h.1, h.2.2⟩
  | cons c q ih =>
    intro s hq hm hs
    have h : s.round.queue = q ∧ s.round.managing = true ∧ s.round.stop = false := by
      simp [Srv.round, hq, hm, hs, Srv.upd]
    exact ih s.round h.1 h.2.1 h.2.2

/-- One turn of a managed connection that is disabled and restarts. -/
theorem spin_turn (s : Srv) (c : Nat) (hm : s.managing = true) (hs : s.stop = false) (hw : s.woken = true)
    (hc : c ∈ s.conns) (he : (s.conn c).enabled = false) (ha : (s.conn c).auto = true) :
    let s' := run s [.round, .finish c]
    s'.managing = true ∧ s'.stop = false ∧ s'.woken = true ∧ c ∈ s'.conns ∧ (s'.conn c).enabled = false ∧
    (s'.conn c).auto = true ∧ (s.conn c).starts + 1 ≤ (s'.conn c).starts := by
  intro s'
  have h1 : s.round.managing = true := step_managing s .round (by simp) hs hm
  have h2 := round_stop s
  have hag : c ∈ s.again := List.mem_filter.mpr ⟨hc, by simp [he, ha]⟩
  have hk : c ∈ s.kept := List.mem_filter.mpr ⟨hc, by simp [he, ha]⟩
  have hcnt : 0 < s.again.count c := List.count_pos_iff.mpr hag
  have h3 : c ∈ s.round.conns ∧ ∃ n, 0 < n ∧ s.round.conn c = Nat.repeat Conn.start n (s.conn c) := by
    unfold Srv.round
    rw [if_pos (by simp [hm, hw])]
    dsimp only
    cases hq : s.queue with
    | nil => exact ⟨hk, _, hcnt, rfl⟩
    | cons d q =>
      refine ⟨List.mem_append_left _ hk, ?_⟩
      by_cases hd : c = d
      · subst hd
        exact ⟨s.again.count c + 1, Nat.succ_pos _, by simp [Srv.upd, Nat.repeat]⟩
      · exact ⟨s.again.count c, hcnt, by simp [Srv.upd, hd]⟩
  obtain ⟨h3, n, hn, h4⟩ := h3
  obtain ⟨-, -, r3, r4, -, -, r7, r8, -⟩ := start_repeat n (s.conn c)
  have e1 : s' = { s.round.upd c fun x => { x with live := x.live - 1, isOpen := false, reader := false } with woken := true } := by
    show step s.round (.finish c) = _
    simp only [step]
    rw [if_pos ⟨by rw [h4, r8]; omega, by rw [h4, r3, he]⟩]
  have e2 : s'.conn c = { s.round.conn c with live := (s.round.conn c).live - 1, isOpen := false, reader := false } := by
    rw [e1]
    simp [Srv.upd]
  refine ⟨by rw [e1]; exact h1, by rw [e1]; exact h2.trans hs, by rw [e1], by rw [e1]; exact h3, ?_, ?_, ?_⟩
  · rw [e2, h4]; exact r3.trans he
  · rw [e2, h4]; exact r4.trans ha
  · rw [e2, h4]
    show _ ≤ (Nat.repeat Conn.start n (s.conn c)).starts
    omega

/-- C122: a websocket connection cannot restart; with `auto_restart` set, once it is disabled, the manager starts a
processing task that ends at once, which wakes the manager, for ever: after `n` turns `n` tasks were started, and
the next turn is due. -/
theorem C122_spin_fails (s : Srv) (c : Nat) (hm : s.managing = true) (hs : s.stop = false) (hw : s.woken = true)
    (hc : c ∈ s.conns) (he : (s.conn c).enabled = false) (ha : (s.conn c).auto = true) (n : Nat) :
    let s' := run s (List.replicate n [.round, .finish c]).flatten
    s'.woken = true ∧ c ∈ s'.conns ∧ (s'.conn c).enabled = false ∧ (s.conn c).starts + n ≤ (s'.conn c).starts := by
  induction n generalizing s with
  | zero => exact ⟨hw, hc, he, Nat.le_refl _⟩
  | succ n ih =>
    intro s'
    have e : s' = run (run s [.round, .finish c]) (List.replicate n [.round, .finish c]).flatten := by
      rw [← run_append]
      rfl
    obtain ⟨a1, a2, a3, a4, a5, a6, a7⟩ := spin_turn s c hm hs hw hc he ha
    obtain ⟨b1, b2, b3, b4⟩ := ih _ a1 a2 a3 a4 a5 a6
    rw [e]
    exact ⟨b1, b2, b3, by omega⟩

/-- C122: a connection that `init` refused is closed and its handler is over, from then on. -/
theorem C122_refused (t : List Ev) (c : Nat) (h : ((run .new t).conn c).refused = true) :
    ((run .new t).conn c).isOpen = false ∧ ((run .new t).conn c).phase = .over := by
  have key : ∀ (t : List Ev) (s : Srv), ((s.conn c).refused = true → (s.conn c).isOpen = false ∧ (s.conn c).phase = .over) →
      (((run s t).conn c).refused = true → ((run s t).conn c).isOpen = false ∧ ((run s t).conn c).phase = .over) := by
    intro t
    induction t with
    | nil => intro s h; exact h
    | cons e t ih =>
      intro s h
      refine ih (step s e) ?_
      cases e with
      | round =>
        obtain ⟨n, hn, -⟩ := round_conn s c
        show (s.round.conn c).refused = true → (s.round.conn c).isOpen = false ∧ (s.round.conn c).phase = .over
        obtain ⟨r1, r2, -, -, -, r6, -⟩ := start_repeat n (s.conn c)
        rw [hn, r1, r2, r6]
        exact h
      | stop => exact h
      | _ =>
        simp only [step]
        (repeat' split) <;> (try simp only [Srv.upd]) <;> (try split) <;> simp_all [Conn.new]
  exact key t .new (fun h => nomatch h) h

/-- C122: a disabled connection is never enabled again. -/
theorem C122_disabled (t : List Ev) (s : Srv) (c : Nat) (hc : (s.conn c).phase ≠ .none) (he : (s.conn c).enabled = false) :
    ((run s t).conn c).enabled = false ∧ ((run s t).conn c).phase ≠ .none := by
  induction t generalizing s with
  | nil => exact ⟨he, hc⟩
  | cons e t ih =>
    have : (step s e |>.conn c).phase ≠ .none ∧ (step s e |>.conn c).enabled = false := by
      cases e with
      | round =>
        obtain ⟨n, hn, -⟩ := round_conn s c
        show (s.round.conn c).phase ≠ _ ∧ (s.round.conn c).enabled = _
        obtain ⟨r1, -, r3, -⟩ := start_repeat n (s.conn c)
        rw [hn, r1, r3]
        exact ⟨hc, he⟩
      | stop => exact ⟨hc, he⟩
      | _ =>
        simp only [step]
        (repeat' split) <;> (try simp only [Srv.upd]) <;> (try split) <;> simp_all
    exact ih _ this.1 this.2

/-- C122: if a handler of messages raises, the connection stays: whatever happens afterwards, also if the peer
closes, the server's handler waits and the protocol stays open, until something is written, the connection is
disabled from elsewhere or the server stops. -/
theorem C122_unnoticed_fails (t t' : List Ev) (c : Nat) (hr : ((run .new t).conn c).reader = true)
    (he : ((run .new t).conn c).enabled = true) (hs : .stop ∉ t ++ t') (h1 : .disable c ∉ t') (h2 : .writeClosed c ∉ t') :
    let s := run .new (t ++ [.crash c] ++ t')
    (s.conn c).phase = .waiting ∧ (s.conn c).isOpen = true ∧ (s.conn c).enabled = true := by
  have h := inv_run t inv_new
  have hst : (run .new t).stop = false := run_stop t .new (fun hm => hs (List.mem_append_left _ hm))
  have htk := h.read c hr
  have hacc : c ∈ (run .new t).accepted := by rw [h.flow]; exact List.mem_append_left _ htk
  have key : ∀ (t' : List Ev) (s : Srv), Inv s → s.stop = false → .stop ∉ t' → .disable c ∉ t' → .writeClosed c ∉ t' →
      c ∈ s.taken → (s.conn c).enabled = true → (s.conn c).reader = false → 
      Inv (run s t') ∧ (run s t').stop = false ∧ c ∈ (run s t').accepted ∧ ((run s t').conn c).enabled = true := by
    intro t'
    induction t' with
    | nil =>
      intro s hi hst _ _ _ hc he _
      refine ⟨hi, hst, ?_, he⟩
      show c ∈ s.accepted
      rw [hi.flow]; exact List.mem_append_left _ hc
    | cons e t' ih =>
      intro s hi hst n1 n2 n3 hc he hr
      have e1 : e ≠ .stop := fun he => n1 (by rw [he]; exact List.mem_cons_self)
      have e2 : e ≠ .disable c := fun he => n2 (by rw [he]; exact List.mem_cons_self)
      have e3 : e ≠ .writeClosed c := fun he => n3 (by rw [he]; exact List.mem_cons_self)
      have hac := hi.acc c (by rw [hi.flow]; exact List.mem_append_left _ hc)
      have hh : (step s e |>.conn c).enabled = true ∧ (step s e |>.conn c).reader = false ∧ c ∈ (step s e).taken := by
        cases e with
        | round =>
          obtain ⟨n, hn, h0⟩ := round_conn s c
          have hn0 : n = 0 := by
            rcases h0 with h0 | h0 | h0
            · exact h0
            · have := (List.mem_filter.mp h0).2
              rw [he] at this
              simp at this
            · exfalso
              have ho := hi.once
              rw [hi.flow, List.nodup_append] at ho
              cases hq : s.queue with
              | nil => rw [hq] at h0; cases h0
              | cons d q =>
                rw [hq] at h0 ho
                simp only [List.head?_cons, Option.some.injEq] at h0
                exact ho.2.2 c hc d List.mem_cons_self h0.symm
          subst hn0
          refine ⟨by show (s.round.conn c).enabled = _; rw [hn]; exact he, by show (s.round.conn c).reader = _; rw [hn]; exact hr, ?_⟩
          show c ∈ s.round.taken
          rcases round_lists s with e | ⟨-, -, e⟩
          · rw [e]; exact hc
          · rcases e with ⟨-, -, -, e⟩ | ⟨d, q, -, -, -, e⟩
            · rw [e]; exact hc
            · rw [e]; exact List.mem_append_left _ hc
        | stop => exact absurd rfl e1
        | _ =>
          simp only [step]
          (repeat' split) <;> (try simp only [Srv.upd]) <;> (try split) <;> simp_all
      exact ih (step s e) (inv_step hi e) (by rw [step_stop s e e1, hst]) (fun hm => n1 (List.mem_cons_of_mem _ hm))
        (fun hm => n2 (List.mem_cons_of_mem _ hm)) (fun hm => n3 (List.mem_cons_of_mem _ hm)) hh.2.2 hh.1 hh.2.1
  intro s
  have e : s = run (step (run .new t) (.crash c)) t' := by
    show run .new (t ++ [.crash c] ++ t') = _
    rw [run_append, run_append]
    rfl
  have ec : step (run .new t) (.crash c) = (run .new t).upd c fun x => { x with reader := false } := by
    show (if _ then _ else _) = _
    rw [if_pos hr]
  obtain ⟨k1, k2, k3, k4⟩ := key t' (step (run .new t) (.crash c)) (inv_step h _) (by rw [step_stop _ _ (by simp), hst])
    (fun hm => hs (List.mem_append_right _ hm)) h1 h2 (by rw [ec]; exact htk) (by rw [ec, upd_same]; exact he)
    (by rw [ec, upd_same])
  rw [← e] at k1 k2 k3 k4
  have hk := k1.shut c
  rw [(k1.acc c k3).2, k4, k2] at hk
  have hk' := fun h => (by simpa using hk h : False)
  have hp : (s.conn c).phase = .waiting := by
    rcases (k1.acc c k3).1 with hp | hp
    · exact hp
    · exact (hk' (.inl hp)).elim
  refine ⟨hp, ?_, k4⟩
  cases ho : (s.conn c).isOpen with
  | true => rfl
  | false => exact (hk' (.inr ⟨ho, by rw [hp]; decide⟩)).elim

/-! ### Cases -/

/-- Two connections: 0 is served, 1 refused. -/
def exTrace : List Ev := [.connect 0, .connect 1, .inited 0 true, .inited 1 false, .round]

theorem C122_cases :
    (run .new exTrace).taken = [0] ∧ (run .new exTrace).conns = [0] ∧
    ((run .new exTrace).conn 0).isOpen = true ∧ ((run .new exTrace).conn 1).isOpen = false ∧
    ((run .new exTrace).conn 0).reader = true ∧ ((run .new exTrace).conn 0).enabled = true := by
  decide +kernel

/-- The state `C122_spin_fails` starts from is reached. -/
theorem C122_spin_cases :
    let s := run .new [.connect 0, .inited 0 true, .round, .setAuto 0 true, .peerCloses 0, .readClosed 0, .finish 0]
    s.woken = true ∧ s.managing = true ∧ s.stop = false ∧ s.conns = [0] ∧ (s.conn 0).enabled = false ∧
    (s.conn 0).auto = true ∧ (s.conn 0).starts = 1 := by
  decide +kernel

/-- Without automatic restart: the connection leaves, and its handler returns. -/
theorem C122_leave_cases :
    let s := run .new [.connect 0, .inited 0 true, .round, .peerCloses 0, .readClosed 0]
    (run s [.finish 0, .round]).conns = [] ∧ ((run s [.wake 0]).conn 0).phase = .over ∧
    ((run s [.wake 0]).conn 0).isOpen = false ∧ (run s [.stop, .round]).managing = false ∧
    (run s [.round]).conns = [0] ∧ ((run s [.finish 0]).conn 0).isOpen = false := by
  decide +kernel

end Verif.Served
