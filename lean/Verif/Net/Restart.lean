import Verif.Base
import Mathlib.Data.List.Induction

/-!
C77: what a UDP or TCP connection keeps when it is restarted (`net/udp/connection.py`,
`net/tcp/connection.py`, `net/mixin.py`, the protocols beside them).

A connection owns one transport at a time; a restart makes a new one from the stored keyword arguments.
The replaced transports stay in the model, as they stay in the event loop until they are closed and their
buffers are written. Addresses are numeric pairs, so nothing is resolved; the loop, the operating system and
the peer are the operations. The handling of one message is one step.
-/
namespace Verif.Restart
open Verif

abbrev Addr := String × Nat
abbrev Msg := List UInt8 × Addr

/-- `_conn_kwargs`: the two arguments that say where the socket lives. -/
structure Kw where
  localAddr : Option Addr
  remoteAddr : Option Addr
  deriving DecidableEq, Repr

inductive Phase where
  | up
  /-- `close` was called, the loop has not finished with it -/
  | closing
  | gone
  deriving DecidableEq, Repr

/-- A transport with its protocol: `got` is what arrived, `queue` what the protocol still holds. -/
structure Tr where
  sock : Addr
  peer : Option Addr
  phase : Phase
  queue : List Msg
  got : List Msg
  deriving DecidableEq, Repr

structure Conn where
  tcp : Bool
  kw : Kw
  /-- the transports replaced so far, the oldest first -/
  old : List Tr
  cur : Tr
  localA : Addr
  remote : Option Addr
  enabled : Bool
  running : Bool
  latest : Option Addr
  /-- what was processed, with the number of the transport it came from -/
  log : List (Nat × Msg)
  /-- what left, with its destination -/
  sent : List (List UInt8 × Addr)
  /-- `metrics.tx.bytes` -/
  tx : Nat
  deriving DecidableEq, Repr

/-- `create_datagram_endpoint` and `create_connection` of the loop: `free` is the address the system picks.
Without any address they raise `ValueError`. -/
def endpoint (kw : Kw) (free : Addr) : Except PyErr Tr :=
  match kw.localAddr, kw.remoteAddr with
  | none, none => .error .value
  | none, some r => .ok ⟨free, some r, .up, [], []⟩
  | some l, r => .ok ⟨(l.1, if l.2 = 0 then free.2 else l.2), r, .up, [], []⟩

/-- `__init__`, udp/connection.py 46–69 and tcp/connection.py 51–71: no arguments are stored yet. -/
def init (tcp : Bool) (t : Tr) : Conn :=
  { tcp := tcp, kw := ⟨none, none⟩, old := [], cur := t, localA := t.sock, remote := t.peer,
    enabled := true, running := false, latest := none, log := [], sent := [], tx := 0 }

/-- `UdpConnection.create_connection`, udp/connection.py 137–175. -/
def createUdp (connect : Bool) (l r : Option Addr) (free : Addr) : Except PyErr Conn :=
  let kw : Kw := if connect then ⟨l, r⟩ else ⟨some (l.getD ("0.0.0.0", 0)), none⟩
  match endpoint kw free with
  | .error e => .error e
  | .ok t =>
    let c := { init false t with kw := kw }
    .ok (if connect then c else match r with
      | none => c
      | some a => { c with remote := some a })

/-- `TcpConnection.create_connection`, tcp/connection.py 122–141. -/
def createTcp (r : Addr) (free : Addr) : Except PyErr Conn :=
  match endpoint ⟨none, some r⟩ free with
  | .error e => .error e
  | .ok t => .ok { init true t with kw := ⟨none, some r⟩ }

/-- The server's side of a connection, tcp/connection.py 152–164. -/
def accepted (sock peer : Addr) : Conn := init true ⟨sock, some peer, .up, [], []⟩

inductive Outcome where
  | up (free : Addr)
  /-- a `ConnectionError`, logged and swallowed (`net/util.py` `try_log_connection_error`) -/
  | refused
  deriving DecidableEq, Repr

inductive Op where
  /-- data arrives at transport `k`; the current one is number `old.length` -/
  | recv (k : Nat) (m : Msg)
  /-- `send_binary` -/
  | send (d : List UInt8)
  /-- UDP `sendto` with an address -/
  | sendTo (d : List UInt8) (a : Addr)
  | setRemote (a : Addr)
  /-- the reader takes one message; the argument is what processing it returned -/
  | read (ok : Bool)
  | disable
  /-- UDP `error_received` of the protocol of transport `k` -/
  | err (k : Nat)
  /-- TCP `connection_lost` of the protocol of transport `k` -/
  | lost (k : Nat)
  /-- `process` begins on an enabled connection -/
  | start
  /-- the tasks of `process` are done: `close` -/
  | finish
  /-- one `restart` of `_handle_restart` -/
  | restart (o : Outcome)
  deriving DecidableEq, Repr

def Conn.tr? (c : Conn) (k : Nat) : Option Tr := (c.old ++ [c.cur])[k]?

/-- Change transport `k`. -/
def Conn.at (c : Conn) (k : Nat) (f : Tr → Tr) : Conn :=
  if k = c.old.length then { c with cur := f c.cur } else { c with old := c.old.modify k f }

/-- `data_received` and `datagram_received` of the protocols. -/
def Tr.take (m : Msg) (t : Tr) : Tr := { t with queue := t.queue ++ [m], got := t.got ++ [m] }

def Tr.over (t : Tr) : Tr := { t with phase := .gone }

/-- The loop's `sendto` for a transport with or without a peer: `ValueError` for another address than the
peer's, nothing without any address. -/
def Tr.dest (t : Tr) (a : Option Addr) : Except PyErr (Option Addr) :=
  match t.peer, a with
  | none, a => .ok a
  | some p, none => .ok (some p)
  | some p, some a => if a = p then .ok (some p) else .error .value

/-- `sendto`, udp/connection.py 94–108, and `send_binary`, tcp/connection.py 102–105: counted whether or not
anything leaves. The `AttributeError` of a socket that is gone is left out. -/
def Conn.sendto (c : Conn) (d : List UInt8) (a : Option Addr) : Conn × Option PyErr :=
  match c.cur.dest a with
  | .error e => (c, some e)
  | .ok x =>
    let c := { c with tx := c.tx + d.length }
    match x with
    | some p => (if c.cur.phase = .up then { c with sent := c.sent ++ [(d, p)] } else c, none)
    | none => (c, none)

/-- `set_transport` (net/mixin.py 33–47) and `_set_protocol`, called by `restart`. -/
def Conn.swap (c : Conn) (t : Tr) : Conn :=
  { c with old := c.old ++ [c.cur], cur := t, localA := t.sock, remote := t.peer }

def step (c : Conn) : Op → Conn × Option PyErr
  | .recv k m =>
    (if (c.tr? k).map Tr.phase = some .up then
      c.at k (Tr.take m) else c, none)
  | .send d => c.sendto d c.remote
  | .sendTo d a => if c.tcp then (c, none) else c.sendto d (some a)
  | .setRemote a => (if c.tcp then c else { c with remote := some a }, none)
  | .read ok =>
    (if c.running ∧ c.enabled then
      match c.cur.queue with
      | [] => c
      | m :: q => { c with cur := { c.cur with queue := q }, latest := some m.2,
                           log := c.log ++ [(c.old.length, m)], enabled := ok }
    else c, none)
  | .disable => ({ c with enabled := false }, none)
  | .err k =>
    (if c.tcp = false ∧ (c.tr? k).map Tr.phase = some .up then { c with enabled := false } else c, none)
  | .lost k =>
    (if c.tcp = true ∧ ((c.tr? k).map Tr.phase = some .up ∨ (c.tr? k).map Tr.phase = some .closing) then
      { c.at k Tr.over with enabled := false } else c, none)
  | .start => (if c.running = false ∧ c.enabled = true then { c with running := true } else c, none)
  | .finish =>
    (if c.running = true ∧ c.enabled = false then
      { c with running := false,
               cur := { c.cur with phase := if c.cur.phase = .up then .closing else c.cur.phase } }
    else c, none)
  | .restart o =>
    if c.running = false ∧ c.enabled = false then
      match o with
      | .refused => (c, if c.kw = ⟨none, none⟩ then some .value else none)
      | .up free =>
        match endpoint c.kw free with
        | .error e => (c, some e)
        | .ok t => ({ c.swap t with enabled := true }, none)
    else (c, none)

def run (c : Conn) (ops : List Op) : Conn := ops.foldl (fun c o => (step c o).1) c

theorem run_cons (c : Conn) (o : Op) (ops : List Op) : run c (o :: ops) = run (step c o).1 ops := rfl

theorem run_snoc (c : Conn) (ops : List Op) (o : Op) : run c (ops ++ [o]) = (step (run c ops) o).1 := by
  simp [run]

/-! ### What never changes -/

theorem at_fields (c : Conn) (k : Nat) (f : Tr → Tr) (h : ∀ t, (f t).sock = t.sock ∧ (f t).peer = t.peer) :
    (c.at k f).kw = c.kw ∧ (c.at k f).tcp = c.tcp ∧ (c.at k f).localA = c.localA ∧
    (c.at k f).remote = c.remote ∧ (c.at k f).sent = c.sent ∧ (c.at k f).log = c.log ∧
    (c.at k f).latest = c.latest ∧ (c.at k f).running = c.running ∧
    (c.at k f).cur.sock = c.cur.sock ∧ (c.at k f).cur.peer = c.cur.peer ∧
    (c.at k f).old.length = c.old.length ∧ (c.at k f).enabled = c.enabled := by
  unfold Conn.at
  split
  · exact ⟨rfl, rfl, rfl, rfl, rfl, rfl, rfl, rfl, (h _).1, (h _).2, rfl, rfl⟩
  · exact ⟨rfl, rfl, rfl, rfl, rfl, rfl, rfl, rfl, rfl, rfl, by simp, rfl⟩

/-- Only a restart replaces the transport, the addresses and nothing else does, except that
`set_remote_address` sets the remote one. -/
theorem step_frame (c : Conn) (o : Op) :
    (step c o).1.kw = c.kw ∧ (step c o).1.tcp = c.tcp ∧
    (((step c o).1.localA = c.localA ∧ (step c o).1.cur.sock = c.cur.sock ∧
        (step c o).1.cur.peer = c.cur.peer ∧ (step c o).1.old.length = c.old.length ∧
        ((step c o).1.remote = c.remote ∨
          ∃ a, o = .setRemote a ∧ c.tcp = false ∧ (step c o).1.remote = some a)) ∨
      ∃ free t, o = .restart (.up free) ∧ c.running = false ∧ c.enabled = false ∧
        endpoint c.kw free = .ok t ∧ (step c o).1 = { c.swap t with enabled := true }) := by
  cases o with
  | recv k m =>
    simp only [step]
    split
    · have := at_fields c k (Tr.take m) (fun t => ⟨rfl, rfl⟩)
      exact ⟨this.1, this.2.1, Or.inl ⟨this.2.2.1, this.2.2.2.2.2.2.2.2.1, this.2.2.2.2.2.2.2.2.2.1,
        this.2.2.2.2.2.2.2.2.2.2.1, Or.inl this.2.2.2.1⟩⟩
    · exact ⟨rfl, rfl, Or.inl ⟨rfl, rfl, rfl, rfl, Or.inl rfl⟩⟩
  | send d =>
    simp only [step, Conn.sendto]
    split
    · exact ⟨rfl, rfl, Or.inl ⟨rfl, rfl, rfl, rfl, Or.inl rfl⟩⟩
    · split
      · split <;> exact ⟨rfl, rfl, Or.inl ⟨rfl, rfl, rfl, rfl, Or.inl rfl⟩⟩
      · exact ⟨rfl, rfl, Or.inl ⟨rfl, rfl, rfl, rfl, Or.inl rfl⟩⟩
  | sendTo d a =>
    simp only [step]
    split
    · exact ⟨rfl, rfl, Or.inl ⟨rfl, rfl, rfl, rfl, Or.inl rfl⟩⟩
    · simp only [Conn.sendto]
      split
      · exact ⟨rfl, rfl, Or.inl ⟨rfl, rfl, rfl, rfl, Or.inl rfl⟩⟩
      · split
        · split <;> exact ⟨rfl, rfl, Or.inl ⟨rfl, rfl, rfl, rfl, Or.inl rfl⟩⟩
        · exact ⟨rfl, rfl, Or.inl ⟨rfl, rfl, rfl, rfl, Or.inl rfl⟩⟩
  | setRemote a =>
    simp only [step]
    split
    · exact ⟨rfl, rfl, Or.inl ⟨rfl, rfl, rfl, rfl, Or.inl rfl⟩⟩
    · rename_i h
      exact ⟨rfl, rfl, Or.inl ⟨rfl, rfl, rfl, rfl, Or.inr ⟨a, rfl, by simpa using h, rfl⟩⟩⟩
  | read ok =>
    simp only [step]
    split
    · split <;> exact ⟨rfl, rfl, Or.inl ⟨rfl, rfl, rfl, rfl, Or.inl rfl⟩⟩
    · exact ⟨rfl, rfl, Or.inl ⟨rfl, rfl, rfl, rfl, Or.inl rfl⟩⟩
  | disable => exact ⟨rfl, rfl, Or.inl ⟨rfl, rfl, rfl, rfl, Or.inl rfl⟩⟩
  | err k => simp only [step]; split <;> exact ⟨rfl, rfl, Or.inl ⟨rfl, rfl, rfl, rfl, Or.inl rfl⟩⟩
  | lost k =>
    simp only [step]
    split
    · have := at_fields c k Tr.over (fun t => ⟨rfl, rfl⟩)
      exact ⟨this.1, this.2.1, Or.inl ⟨this.2.2.1, this.2.2.2.2.2.2.2.2.1, this.2.2.2.2.2.2.2.2.2.1,
        this.2.2.2.2.2.2.2.2.2.2.1, Or.inl this.2.2.2.1⟩⟩
    · exact ⟨rfl, rfl, Or.inl ⟨rfl, rfl, rfl, rfl, Or.inl rfl⟩⟩
  | start => simp only [step]; split <;> exact ⟨rfl, rfl, Or.inl ⟨rfl, rfl, rfl, rfl, Or.inl rfl⟩⟩
  | finish => simp only [step]; split <;> exact ⟨rfl, rfl, Or.inl ⟨rfl, rfl, rfl, rfl, Or.inl rfl⟩⟩
  | restart o =>
    by_cases h : c.running = false ∧ c.enabled = false
    · cases o with
      | refused =>
        simp only [step, if_pos h]
        exact ⟨trivial, trivial, Or.inl ⟨trivial, trivial, trivial, trivial, Or.inl trivial⟩⟩
      | up free =>
        rcases he : endpoint c.kw free with e | t
        · simp only [step, if_pos h, he]
          exact ⟨trivial, trivial, Or.inl ⟨trivial, trivial, trivial, trivial, Or.inl trivial⟩⟩
        · have hs : (step c (.restart (.up free))).1 = { c.swap t with enabled := true } := by
            simp only [step, if_pos h, he]
          refine ⟨by rw [hs]; rfl, by rw [hs]; rfl, Or.inr ⟨free, t, rfl, h.1, h.2, he, hs⟩⟩
    · simp only [step, if_neg h]
      exact ⟨trivial, trivial, Or.inl ⟨trivial, trivial, trivial, trivial, Or.inl trivial⟩⟩

/-- What one step may send. -/
theorem step_sent (c : Conn) (o : Op) :
    (step c o).1.sent = c.sent ∨
      ∃ d a p, c.cur.dest a = .ok (some p) ∧ c.cur.phase = .up ∧ (step c o).1.sent = c.sent ++ [(d, p)] ∧
        (o = .send d ∧ a = c.remote ∨ ∃ b, o = .sendTo d b ∧ a = some b) := by
  cases o with
  | recv k m =>
    simp only [step]
    split
    · exact Or.inl (at_fields c k (Tr.take m) (fun t => ⟨rfl, rfl⟩)).2.2.2.2.1
    · exact Or.inl rfl
  | send d =>
    simp only [step, Conn.sendto]
    rcases hd : c.cur.dest c.remote with e | x
    · exact Or.inl rfl
    · cases x with
      | none => exact Or.inl rfl
      | some p =>
        by_cases hp : c.cur.phase = .up
        · refine Or.inr ⟨d, c.remote, p, hd, hp, ?_, Or.inl ⟨rfl, rfl⟩⟩
          simp [hp]
        · left; simp [hp]
  | sendTo d a =>
    simp only [step]
    by_cases ht : c.tcp = true
    · rw [if_pos ht]; exact Or.inl rfl
    · rw [if_neg ht]
      simp only [Conn.sendto]
      rcases hd : c.cur.dest (some a) with e | x
      · exact Or.inl rfl
      · cases x with
        | none => exact Or.inl rfl
        | some p =>
          by_cases hp : c.cur.phase = .up
          · refine Or.inr ⟨d, some a, p, hd, hp, ?_, Or.inr ⟨a, rfl, rfl⟩⟩
            simp [hp]
          · left; simp [hp]
  | setRemote a => simp only [step]; split <;> exact Or.inl rfl
  | read ok =>
    simp only [step]
    split
    · split <;> exact Or.inl rfl
    · exact Or.inl rfl
  | disable => exact Or.inl rfl
  | err k => simp only [step]; split <;> exact Or.inl rfl
  | lost k =>
    simp only [step]
    split
    · exact Or.inl (at_fields c k Tr.over (fun t => ⟨rfl, rfl⟩)).2.2.2.2.1
    · exact Or.inl rfl
  | start => simp only [step]; split <;> exact Or.inl rfl
  | finish => simp only [step]; split <;> exact Or.inl rfl
  | restart o =>
    by_cases h : c.running = false ∧ c.enabled = false
    · cases o with
      | refused => simp only [step, if_pos h]; exact Or.inl trivial
      | up free =>
        rcases he : endpoint c.kw free with e | t
        · simp only [step, if_pos h, he]; exact Or.inl trivial
        · simp only [step, if_pos h, he]; exact Or.inl rfl
    · simp only [step, if_neg h]; exact Or.inl trivial

theorem endpoint_peer {kw : Kw} {free : Addr} {t : Tr} (h : endpoint kw free = .ok t) :
    t.peer = kw.remoteAddr ∧ t.phase = .up ∧ t.queue = [] ∧ t.got = [] ∧
    (∀ l, kw.localAddr = some l → l.2 ≠ 0 → t.sock = l) := by
  obtain ⟨l, r⟩ := kw
  cases l with
  | none =>
    cases r with
    | none => cases h
    | some r => cases h; exact ⟨rfl, rfl, rfl, rfl, fun l hl => by cases hl⟩
  | some l =>
    cases h
    refine ⟨rfl, rfl, rfl, rfl, ?_⟩
    intro l' hl hz
    cases hl
    simp [hz]

/-! ### Connected sockets -/

structure Wired (r : Addr) (c : Conn) : Prop where
  kw : c.kw.remoteAddr = some r
  peer : c.cur.peer = some r
  sent : ∀ x ∈ c.sent, x.2 = r

theorem Wired.step {r : Addr} {c : Conn} (h : Wired r c) (o : Op) : Wired r (step c o).1 := by
  obtain ⟨hk, ht, hf⟩ := step_frame c o
  refine ⟨by rw [hk]; exact h.kw, ?_, ?_⟩
  · rcases hf with ⟨_, _, hp, _⟩ | ⟨free, t, _, _, _, he, hs⟩
    · rw [hp]; exact h.peer
    · rw [hs]; exact (endpoint_peer he).1.trans h.kw
  · rcases step_sent c o with hs | ⟨d, a, p, hd, _, hs, _⟩
    · rw [hs]; exact h.sent
    · rw [hs]
      intro x hx
      rcases List.mem_append.mp hx with hx | hx
      · exact h.sent x hx
      · rw [List.mem_singleton.mp hx]
        unfold Tr.dest at hd
        rw [h.peer] at hd
        cases a with
        | none => exact (Option.some.inj (Except.ok.inj hd)).symm
        | some a =>
          simp only at hd
          split at hd
          · exact (Option.some.inj (Except.ok.inj hd)).symm
          · cases hd

theorem Wired.run {r : Addr} {c : Conn} (h : Wired r c) (ops : List Op) : Wired r (run c ops) := by
  induction ops generalizing c with
  | nil => exact h
  | cons o ops ih => exact ih (h.step o)

theorem createUdp_connected {l r free c} (h : createUdp true l r free = .ok c) :
    ∃ t, endpoint ⟨l, r⟩ free = .ok t ∧ c = { init false t with kw := ⟨l, r⟩ } := by
  unfold createUdp at h
  simp only [if_true] at h
  rcases he : endpoint ⟨l, r⟩ free with e | t
  · rw [he] at h; cases h
  · rw [he] at h; exact ⟨t, rfl, (Except.ok.inj h).symm⟩

/-- The two ways to make a connection with a connected socket to `r`. -/
def Connected (r : Addr) (c : Conn) : Prop :=
  (∃ l free, createUdp true l (some r) free = .ok c) ∨ (∃ free, createTcp r free = .ok c)

theorem Connected.start {r : Addr} {c : Conn} (h : Connected r c) :
    c.kw.remoteAddr = some r ∧ c.cur.peer = some r ∧ c.remote = some r ∧ c.sent = [] := by
  rcases h with ⟨l, free, h⟩ | ⟨free, h⟩
  · obtain ⟨t, he, rfl⟩ := createUdp_connected h
    exact ⟨rfl, (endpoint_peer he).1, (endpoint_peer he).1, rfl⟩
  · cases h; exact ⟨rfl, rfl, rfl, rfl⟩

/-- C77: everything a connected connection ever sends goes to the address it was created for, whatever
happens to it: restarts, failures, other addresses given to `sendto` or `set_remote_address`. -/
theorem C77_connected (r : Addr) (c : Conn) (h : Connected r c) (ops : List Op) :
    ∀ x ∈ (run c ops).sent, x.2 = r := by
  obtain ⟨h1, h2, _, h4⟩ := h.start
  exact (Wired.run ⟨h1, h2, by rw [h4]; intro x hx; cases hx⟩ ops).sent

/-- C77: and whoever gives `sendto` of a connected UDP connection another address is told so, and nothing is
counted or sent. -/
theorem C77_elsewhere (r : Addr) (c : Conn) (h : Connected r c) (ops : List Op) (d : List UInt8) (a : Addr)
    (hu : (run c ops).tcp = false) (ha : a ≠ r) : step (run c ops) (.sendTo d a) = (run c ops, some .value) := by
  obtain ⟨h1, h2, _, h4⟩ := h.start
  have hp := (Wired.run ⟨h1, h2, by rw [h4]; intro x hx; cases hx⟩ ops).peer
  simp only [step, hu, Conn.sendto, Tr.dest, hp, if_neg ha, Bool.false_eq_true, if_false]

/-- C77: and as long as nobody sets another address its remote address is that one, after any number of
restarts, so that `send` never raises and what is sent while the transport is open leaves. -/
theorem C77_remote (r : Addr) (c : Conn) (h : Connected r c) (ops : List Op)
    (hn : ∀ a, Op.setRemote a ∉ ops) (d : List UInt8) :
    (run c ops).remote = some r ∧
    (step (run c ops) (.send d)).2 = none ∧
    ((run c ops).cur.phase = .up →
      (step (run c ops) (.send d)).1.sent = (run c ops).sent ++ [(d, r)]) := by
  obtain ⟨h1, h2, h3, h4⟩ := h.start
  have hw : Wired r c := ⟨h1, h2, by rw [h4]; intro x hx; cases hx⟩
  have hr : (run c ops).remote = some r := by
    clear h h4 d
    induction ops generalizing c with
    | nil => exact h3
    | cons o ops ih =>
      have hw' := hw.step o
      refine ih (step c o).1 (fun a ha => hn a (List.mem_cons_of_mem _ ha)) hw'.kw hw'.peer ?_ hw'
      obtain ⟨_, _, hf⟩ := step_frame c o
      rcases hf with ⟨_, _, _, _, hr | ⟨a, ho, _⟩⟩ | ⟨free, t, _, _, _, he, hs⟩
      · rw [hr]; exact h3
      · exact absurd (ho ▸ List.mem_cons_self ..) (hn a)
      · rw [hs]; exact (endpoint_peer he).1.trans h1
  have hp := (hw.run ops).peer
  have hd : (run c ops).cur.dest (run c ops).remote = .ok (some r) := by
    unfold Tr.dest
    rw [hp, hr]
    simp
  refine ⟨hr, ?_, ?_⟩
  · simp only [step, Conn.sendto, hd]
  · intro hu
    simp only [step, Conn.sendto, hd, hu, if_true]

/-! ### Sockets that are not connected -/

def Loose (c : Conn) : Prop := c.kw.remoteAddr = none ∧ c.cur.peer = none

theorem Loose.step {c : Conn} (h : Loose c) (o : Op) : Loose (step c o).1 := by
  obtain ⟨hk, _, hf⟩ := step_frame c o
  refine ⟨by rw [hk]; exact h.1, ?_⟩
  rcases hf with ⟨_, _, hp, _⟩ | ⟨free, t, _, _, _, he, hs⟩
  · rw [hp]; exact h.2
  · rw [hs]; exact (endpoint_peer he).1.trans h.1

theorem Loose.run {c : Conn} (h : Loose c) (ops : List Op) : Loose (run c ops) := by
  induction ops generalizing c with
  | nil => exact h
  | cons o ops ih => exact ih (h.step o)

theorem createUdp_loose {l r free c} (h : createUdp false l r free = .ok c) :
    Loose c ∧ c.remote = r ∧ c.tcp = false ∧ c.sent = [] ∧ c.enabled = true ∧ c.running = false ∧
      c.old = [] ∧ c.cur.phase = .up ∧ c.kw.localAddr = some (l.getD ("0.0.0.0", 0)) ∧ c.tx = 0 := by
  unfold createUdp endpoint at h
  cases r with
  | none =>
    cases h
    exact ⟨⟨rfl, rfl⟩, rfl, rfl, rfl, rfl, rfl, rfl, rfl, rfl, rfl⟩
  | some a =>
    cases h
    exact ⟨⟨rfl, rfl⟩, rfl, rfl, rfl, rfl, rfl, rfl, rfl, rfl, rfl⟩

/-- The address a list of operations leaves set. -/
def setLast (r : Option Addr) : List Op → Option Addr
  | [] => r
  | .setRemote a :: ops => setLast (some a) ops
  | _ :: ops => setLast r ops

/-- C77: a connection that is not connected sends to the address it was given last, as long as it is not
restarted. What is missing: the same after a restart, which fails below. -/
theorem C77_unconnected_partial (l r : Option Addr) (free : Addr) (c : Conn)
    (h : createUdp false l r free = .ok c) (ops : List Op)
    (hn : ∀ o, Op.restart o ∉ ops) (d : List UInt8) :
    (run c ops).remote = setLast r ops ∧
    (step (run c ops) (.send d)).2 = none ∧
    ((run c ops).cur.phase = .up →
      (step (run c ops) (.send d)).1.sent
        = (run c ops).sent ++ ((setLast r ops).map fun a => (d, a)).toList) := by
  have hl := (createUdp_loose h).1
  have h1 := (createUdp_loose h).2.1
  have h2 := (createUdp_loose h).2.2.1
  have hr : (run c ops).remote = setLast r ops := by
    clear h hl
    induction ops generalizing c r with
    | nil => exact h1
    | cons o ops ih =>
      have hn' : ∀ o, Op.restart o ∉ ops := fun o ho => hn o (List.mem_cons_of_mem _ ho)
      obtain ⟨_, ht, hf⟩ := step_frame c o
      rcases hf with ⟨_, _, _, _, hr | ⟨a, ho, _, hr⟩⟩ | ⟨free, t, ho, _⟩
      · by_cases hs : ∃ a, o = .setRemote a
        · obtain ⟨a, rfl⟩ := hs
          refine ih (some a) _ hn' ?_ (by rw [ht]; exact h2)
          simp only [step, h2]
          rfl
        · have : setLast r (o :: ops) = setLast r ops := by
            cases o <;> first | rfl | exact absurd ⟨_, rfl⟩ hs
          rw [this]
          exact ih r _ hn' (by rw [hr]; exact h1) (by rw [ht]; exact h2)
      · subst ho
        exact ih (some a) _ hn' hr (by rw [ht]; exact h2)
      · subst ho; exact absurd (List.mem_cons_self ..) (hn _)
  have hp := (hl.run ops).2
  have hd : (run c ops).cur.dest (run c ops).remote = .ok (setLast r ops) := by
    unfold Tr.dest
    rw [hp, hr]
  refine ⟨hr, ?_, ?_⟩
  · simp only [step, Conn.sendto, hd]
    split <;> rfl
  · intro hu
    simp only [step, Conn.sendto, hd]
    cases hs : setLast r ops with
    | none => simp
    | some a => simp only [hu, if_true]; rfl

/-- C77, keeping the remote address is false of the code: once a connection that is not connected has been
restarted, its remote address is gone, and what is sent counts as transmitted but goes nowhere, for as long
as nobody sets the address again. -/
theorem C77_unconnected_fails (l r : Option Addr) (free : Addr) (c : Conn)
    (h : createUdp false l r free = .ok c) (ops : List Op) (f : Addr)
    (hd : (run c ops).enabled = false) (hr : (run c ops).running = false)
    (later : List Op) (hs : ∀ a, Op.setRemote a ∉ later) (d : List UInt8) :
    let s := run (step (run c ops) (.restart (.up f))).1 later
    (step (run c ops) (.restart (.up f))).2 = none ∧
    s.remote = none ∧
    (step s (.send d)).2 = none ∧ (step s (.send d)).1.sent = s.sent ∧
    (step s (.send d)).1.tx = s.tx + d.length := by
  have hl := (createUdp_loose h).1
  have hk := (createUdp_loose h).2.2.2.2.2.2.2.2.1
  have hl1 := hl.run ops
  have hk1 : (run c ops).kw.localAddr = some (l.getD ("0.0.0.0", 0)) := by
    clear hl hl1 hd hr h
    induction ops generalizing c with
    | nil => exact hk
    | cons o ops ih => exact ih _ (by rw [(step_frame c o).1]; exact hk)
  have he : ∃ t, endpoint (run c ops).kw f = .ok t := by
    unfold endpoint; rw [hk1]; exact ⟨_, rfl⟩
  obtain ⟨t, he⟩ := he
  have hst : step (run c ops) (.restart (.up f)) = ({ (run c ops).swap t with enabled := true }, none) := by
    simp only [step, if_pos (And.intro hr hd), he]
  have hl2 : Loose (step (run c ops) (.restart (.up f))).1 := hl1.step _
  have h0 : (step (run c ops) (.restart (.up f))).1.remote = none := by
    rw [hst]; exact (endpoint_peer he).1.trans hl1.1
  have hl3 := hl2.run later
  have h3 : (run (step (run c ops) (.restart (.up f))).1 later).remote = none := by
    clear hst hl3
    generalize (step (run c ops) (.restart (.up f))).1 = s at hl2 h0
    induction later generalizing s with
    | nil => exact h0
    | cons o later ih =>
      refine ih (fun a ha => hs a (List.mem_cons_of_mem _ ha)) _ (hl2.step o) ?_
      show (step s o).1.remote = none
      obtain ⟨_, _, hf⟩ := step_frame s o
      rcases hf with ⟨_, _, _, _, hr | ⟨a, ho, _⟩⟩ | ⟨free, t, _, _, _, he, hs'⟩
      · rw [hr]; exact h0
      · exact absurd (ho ▸ List.mem_cons_self ..) (hs a)
      · rw [hs']; exact (endpoint_peer he).1.trans hl2.1
  have hdst : (run (step (run c ops) (.restart (.up f))).1 later).cur.dest
      (run (step (run c ops) (.restart (.up f))).1 later).remote = .ok none := by
    unfold Tr.dest; rw [hl3.2, h3]
  have hsend : ∀ s : Conn, s.cur.dest s.remote = .ok none →
      step s (.send d) = ({ s with tx := s.tx + d.length }, none) := by
    intro s hs
    simp only [step, Conn.sendto, hs]
  have h4 := hsend _ hdst
  exact ⟨by rw [hst], h3, by rw [h4], by rw [h4], by rw [h4]⟩

/-! ### The local address -/

/-- C77: a connection created with a local port keeps its local address. -/
theorem C77_local (connect : Bool) (a : Addr) (r : Option Addr) (free : Addr) (c : Conn) (hp : a.2 ≠ 0)
    (h : createUdp connect (some a) r free = .ok c) (ops : List Op) :
    (run c ops).localA = a := by
  have hc : c.localA = a ∧ c.kw.localAddr = some a := by
    unfold createUdp endpoint at h
    cases connect with
    | true => cases h; simp [init, hp]
    | false => cases r <;> (cases h; simp [init, hp])
  obtain ⟨h1, h2⟩ := hc
  clear h
  induction ops generalizing c with
  | nil => exact h1
  | cons o ops ih =>
    obtain ⟨hk, _, hf⟩ := step_frame c o
    refine ih _ ?_ (by rw [hk]; exact h2)
    show (step c o).1.localA = a
    rcases hf with ⟨hl, _⟩ | ⟨free, t, _, _, _, he, hs⟩
    · rw [hl]; exact h1
    · rw [hs]; exact (endpoint_peer he).2.2.2.2 a h2 hp

/-- C77, keeping the local address is false of the code without a local port: after a restart the local port
is the one the system picks then. -/
theorem C77_port_fails (c : Conn) (ops : List Op) (f : Addr)
    (hk : c.kw.localAddr = none ∧ c.kw.remoteAddr ≠ none ∨ ∃ h, c.kw.localAddr = some (h, 0))
    (hd : (run c ops).enabled = false) (hr : (run c ops).running = false)
    (hf : f.2 ≠ (run c ops).localA.2) :
    (step (run c ops) (.restart (.up f))).1.localA ≠ (run c ops).localA ∧
    (step (run c ops) (.restart (.up f))).1.localA.2 = f.2 := by
  have hkw : (run c ops).kw = c.kw := by
    clear hk hd hr hf
    induction ops generalizing c with
    | nil => rfl
    | cons o ops ih => exact (ih _).trans (step_frame c o).1
  have he : ∃ t, endpoint (run c ops).kw f = .ok t ∧ t.sock.2 = f.2 := by
    rw [hkw]
    unfold endpoint
    rcases hk with ⟨h1, h2⟩ | ⟨h, h1⟩
    · rw [h1]
      cases hr : c.kw.remoteAddr with
      | none => exact absurd hr h2
      | some r => exact ⟨_, rfl, rfl⟩
    · rw [h1]; exact ⟨_, rfl, by simp⟩
  obtain ⟨t, he, hs⟩ := he
  have hst : (step (run c ops) (.restart (.up f))).1.localA = t.sock := by
    simp only [step, if_pos (And.intro hr hd), he]
    rfl
  refine ⟨?_, by rw [hst]; exact hs⟩
  rw [hst]
  intro h
  exact hf (by rw [← h]; exact hs.symm)

/-! ### The queues -/

/-- What was processed from transport `k`. -/
def fromTr (k : Nat) (log : List (Nat × Msg)) : List Msg := (log.filter (fun x => x.1 == k)).map Prod.snd

structure QInv (c : Conn) : Prop where
  each : ∀ k t, c.tr? k = some t → fromTr k c.log ++ t.queue = t.got
  above : ∀ x ∈ c.log, x.1 ≤ c.old.length
  sorted : c.log.Pairwise (fun x y => x.1 ≤ y.1)
  latest : c.latest = (c.log.getLast?).map (fun x => x.2.2)

theorem tr_at (c : Conn) (k j : Nat) (f : Tr → Tr) :
    (c.at k f).tr? j = (c.tr? j).map (fun t => if j = k then f t else t) := by
  unfold Conn.at
  split
  · rename_i hk
    subst hk
    unfold Conn.tr?
    simp only
    rcases Nat.lt_trichotomy j c.old.length with h | h | h
    · rw [List.getElem?_append_left h, List.getElem?_append_left h]
      have hne : j ≠ c.old.length := by omega
      simp [hne]
    · subst h; simp
    · rw [List.getElem?_eq_none (by simp; omega), List.getElem?_eq_none (by simp; omega)]
      rfl
  · rename_i hk
    unfold Conn.tr?
    simp only
    rcases Nat.lt_trichotomy j c.old.length with h | h | h
    · rw [List.getElem?_append_left (by simpa using h), List.getElem?_append_left h, List.getElem?_modify]
      congr 1
      funext t
      by_cases hjk : k = j
      · subst hjk; simp
      · have : ¬ j = k := fun e => hjk e.symm
        simp [hjk, this]
    · subst h
      have : ¬ c.old.length = k := fun e => hk e.symm
      simp [this]
    · rw [List.getElem?_eq_none (by simp; omega), List.getElem?_eq_none (by simp; omega)]
      rfl

theorem tr_cur (c : Conn) : c.tr? c.old.length = some c.cur := by simp [Conn.tr?]

theorem fromTr_append (k : Nat) (a b : List (Nat × Msg)) : fromTr k (a ++ b) = fromTr k a ++ fromTr k b := by
  simp [fromTr]

theorem fromTr_none (k : Nat) (log : List (Nat × Msg)) (h : ∀ x ∈ log, x.1 < k) : fromTr k log = [] := by
  unfold fromTr
  rw [List.filter_eq_nil_iff.mpr]
  · rfl
  · intro x hx
    have := h x hx
    simp; omega

/-- A step that leaves the transports alone, up to their phase, and the log. -/
theorem QInv.same {c s : Conn} (h : QInv c) (hl : s.log = c.log) (ho : s.old.length = c.old.length)
    (hla : s.latest = c.latest)
    (ht : ∀ k t, s.tr? k = some t → ∃ t', c.tr? k = some t' ∧ t.queue = t'.queue ∧ t.got = t'.got) : QInv s := by
  refine ⟨?_, by rw [hl, ho]; exact h.above, by rw [hl]; exact h.sorted, by rw [hla, hl]; exact h.latest⟩
  intro k t hk
  obtain ⟨t', h1, h2, h3⟩ := ht k t hk
  rw [hl, h2, h3]
  exact h.each k t' h1

theorem QInv.refl {c s : Conn} (h : QInv c) (hl : s.log = c.log) (ho : s.old = c.old) (hc : s.cur = c.cur)
    (hla : s.latest = c.latest) : QInv s :=
  h.same hl (by rw [ho]) hla (fun k t hk => ⟨t, by unfold Conn.tr? at hk ⊢; rw [ho, hc] at hk; exact hk, rfl, rfl⟩)

theorem QInv.step {c : Conn} (h : QInv c) (o : Op) : QInv (step c o).1 := by
  cases o with
  | recv k m =>
    simp only [Restart.step]
    split
    · have hf := at_fields c k (Tr.take m) (fun t => ⟨rfl, rfl⟩)
      refine ⟨?_, ?_, ?_, ?_⟩
      · intro j t hj
        rw [tr_at] at hj
        rw [hf.2.2.2.2.2.1]
        rcases hc : c.tr? j with _ | t'
        · rw [hc] at hj; cases hj
        · rw [hc] at hj
          have := h.each j t' hc
          simp only [Option.map_some, Option.some.injEq] at hj
          subst hj
          split
          · show fromTr j c.log ++ (t'.queue ++ [m]) = t'.got ++ [m]
            rw [← List.append_assoc, this]
          · exact this
      · rw [hf.2.2.2.2.2.1, hf.2.2.2.2.2.2.2.2.2.2.1]; exact h.above
      · rw [hf.2.2.2.2.2.1]; exact h.sorted
      · rw [hf.2.2.2.2.2.1, hf.2.2.2.2.2.2.1]; exact h.latest
    · exact h
  | send d =>
    simp only [Restart.step, Conn.sendto]
    split
    · exact h
    · split
      · split <;> exact h.refl rfl rfl rfl rfl
      · exact h.refl rfl rfl rfl rfl
  | sendTo d a =>
    simp only [Restart.step, Conn.sendto]
    split
    · exact h
    · split
      · exact h
      · split
        · split <;> exact h.refl rfl rfl rfl rfl
        · exact h.refl rfl rfl rfl rfl
  | setRemote a =>
    simp only [Restart.step]
    split
    · exact h
    · exact h.refl rfl rfl rfl rfl
  | read ok =>
    by_cases hr : c.running ∧ c.enabled
    · rcases hq : c.cur.queue with _ | ⟨m, q⟩
      · simp only [Restart.step, if_pos hr, hq]; exact h
      · simp only [Restart.step, if_pos hr, hq]
        refine ⟨?_, ?_, ?_, ?_⟩
        · intro j t hj
          simp only [fromTr_append]
          unfold Conn.tr? at hj
          simp only at hj
          rcases Nat.lt_trichotomy j c.old.length with hlt | heq | hgt
          · rw [List.getElem?_append_left hlt] at hj
            have hc : c.tr? j = some t := by unfold Conn.tr?; rw [List.getElem?_append_left hlt]; exact hj
            have := h.each j t hc
            rw [show fromTr j [(c.old.length, m)] = [] from by
              unfold fromTr
              have : ¬ c.old.length = j := by omega
              simp [this], List.append_nil]
            exact this
          · subst heq
            simp only [Nat.le_refl, List.getElem?_append_right, Nat.sub_self, List.getElem?_cons_zero,
              Option.some.injEq] at hj
            subst hj
            have := h.each c.old.length c.cur (tr_cur c)
            rw [hq] at this
            rw [show fromTr c.old.length [(c.old.length, m)] = [m] from by simp [fromTr]]
            simpa using this
          · rw [List.getElem?_eq_none (by simp; omega)] at hj; cases hj
        · intro x hx
          rcases List.mem_append.mp hx with hx | hx
          · exact h.above x hx
          · rw [List.mem_singleton.mp hx]; exact Nat.le_refl _
        · rw [List.pairwise_append]
          refine ⟨h.sorted, List.pairwise_singleton _ _, ?_⟩
          intro x hx y hy
          rw [List.mem_singleton.mp hy]
          exact h.above x hx
        · simp
    · simp only [Restart.step, if_neg hr]; exact h
  | disable => exact h.refl rfl rfl rfl rfl
  | err k =>
    simp only [Restart.step]
    split
    · exact h.refl rfl rfl rfl rfl
    · exact h
  | lost k =>
    simp only [Restart.step]
    split
    · have hf := at_fields c k Tr.over (fun t => ⟨rfl, rfl⟩)
      refine h.same hf.2.2.2.2.2.1 hf.2.2.2.2.2.2.2.2.2.2.1 hf.2.2.2.2.2.2.1 ?_
      intro j t hj
      have hj' : (c.at k Tr.over).tr? j = some t := hj
      rw [tr_at] at hj'
      rcases hc : c.tr? j with _ | t'
      · rw [hc] at hj'; cases hj'
      · rw [hc] at hj'
        simp only [Option.map_some, Option.some.injEq] at hj'
        subst hj'
        refine ⟨t', rfl, ?_, ?_⟩ <;> split <;> rfl
    · exact h
  | start =>
    simp only [Restart.step]
    split
    · exact h.refl rfl rfl rfl rfl
    · exact h
  | finish =>
    simp only [Restart.step]
    split
    · refine h.same rfl rfl rfl ?_
      intro j t hj
      unfold Conn.tr? at hj
      simp only at hj
      rcases Nat.lt_trichotomy j c.old.length with hlt | heq | hgt
      · rw [List.getElem?_append_left hlt] at hj
        exact ⟨t, by unfold Conn.tr?; rw [List.getElem?_append_left hlt]; exact hj, rfl, rfl⟩
      · subst heq
        simp only [Nat.le_refl, List.getElem?_append_right, Nat.sub_self, List.getElem?_cons_zero,
          Option.some.injEq] at hj
        subst hj
        exact ⟨c.cur, tr_cur c, rfl, rfl⟩
      · rw [List.getElem?_eq_none (by simp; omega)] at hj; cases hj
    · exact h
  | restart o =>
    obtain ⟨_, _, hf⟩ := step_frame c (.restart o)
    by_cases hg : c.running = false ∧ c.enabled = false
    · cases o with
      | refused => simp only [Restart.step, if_pos hg]; exact h
      | up free =>
        rcases he : endpoint c.kw free with e | t
        · simp only [Restart.step, if_pos hg, he]; exact h
        · simp only [Restart.step, if_pos hg, he]
          have hp := endpoint_peer he
          refine ⟨?_, ?_, h.sorted, h.latest⟩
          · intro j t' hj
            unfold Conn.tr? Conn.swap at hj
            simp only at hj
            rcases Nat.lt_or_ge j (c.old ++ [c.cur]).length with hlt | hge
            · rw [List.getElem?_append_left hlt] at hj
              exact h.each j t' hj
            · rcases Nat.eq_or_lt_of_le hge with heq | hgt
              · rw [List.getElem?_append_right (by omega), ← heq] at hj
                simp only [Nat.sub_self, List.getElem?_cons_zero, Option.some.injEq] at hj
                subst hj
                rw [hp.2.2.1, hp.2.2.2.1, List.append_nil]
                apply fromTr_none
                intro x hx
                have := h.above x hx
                simp only [List.length_append, List.length_singleton] at heq
                omega
              · rw [List.getElem?_eq_none (by simp only [List.length_append, List.length_singleton] at hgt ⊢; omega)] at hj
                cases hj
          · intro x hx
            have := h.above x hx
            simp only [Conn.swap, List.length_append, List.length_singleton]
            omega
    · simp only [Restart.step, if_neg hg]; exact h

theorem QInv.run {c : Conn} (h : QInv c) (ops : List Op) : QInv (run c ops) := by
  induction ops generalizing c with
  | nil => exact h
  | cons o ops ih => exact ih (h.step o)

/-- The ways to make a connection. -/
def Fresh (c : Conn) : Prop :=
  (∃ b l r free, createUdp b l r free = .ok c) ∨ (∃ r free, createTcp r free = .ok c) ∨
  ∃ sock peer, c = accepted sock peer

theorem Fresh.bare {c : Conn} (h : Fresh c) :
    c.old = [] ∧ c.log = [] ∧ c.latest = none ∧ c.cur.queue = [] ∧ c.cur.got = [] ∧ c.enabled = true ∧
    c.running = false ∧ c.cur.phase = .up := by
  rcases h with ⟨b, l, r, free, h⟩ | ⟨r, free, h⟩ | ⟨sock, peer, rfl⟩
  · cases b with
    | true =>
      obtain ⟨t, he, rfl⟩ := createUdp_connected h
      have := endpoint_peer he
      exact ⟨rfl, rfl, rfl, this.2.2.1, this.2.2.2.1, rfl, rfl, this.2.1⟩
    | false =>
      unfold createUdp endpoint at h
      cases r <;> (cases h; exact ⟨rfl, rfl, rfl, rfl, rfl, rfl, rfl, rfl⟩)
  · cases h; exact ⟨rfl, rfl, rfl, rfl, rfl, rfl, rfl, rfl⟩
  · exact ⟨rfl, rfl, rfl, rfl, rfl, rfl, rfl, rfl⟩

theorem Fresh.qinv {c : Conn} (h : Fresh c) : QInv c := by
  obtain ⟨h1, h2, h3, h4, h5, _⟩ := h.bare
  refine ⟨?_, (by rw [h2]; intro x hx; cases hx), (by rw [h2]; exact List.Pairwise.nil), (by rw [h2, h3]; rfl)⟩
  intro k t hk
  unfold Conn.tr? at hk
  rw [h1] at hk
  cases k with
  | zero =>
    simp only [List.nil_append, List.getElem?_cons_zero, Option.some.injEq] at hk
    subst hk
    rw [h2, h4, h5]; rfl
  | succ k => cases hk

/-- C77: of every transport the messages that arrived are those that were processed followed by those that
wait, in order: none twice, none skipped, none changed. Messages of a later transport are processed after
those of an earlier one, and the address to answer to is that of the message processed last. -/
theorem C77_order (c : Conn) (h : Fresh c) (ops : List Op) :
    (∀ k t, (run c ops).tr? k = some t →
      ((run c ops).log.filter (fun x => x.1 == k)).map Prod.snd ++ t.queue = t.got) ∧
    (run c ops).log.Pairwise (fun x y => x.1 ≤ y.1) ∧
    (run c ops).latest = ((run c ops).log.getLast?).map (fun x => x.2.2) := by
  have := h.qinv.run ops
  exact ⟨this.each, this.sorted, this.latest⟩

/-- C77, processing everything that arrived is false of the code: once a transport is replaced, nothing that
waits in its queue is ever processed. -/
theorem C77_left_fails (c : Conn) (k : Nat) (hk : k < c.old.length) (ops : List Op) :
    fromTr k (run c ops).log = fromTr k c.log := by
  induction ops generalizing c with
  | nil => rfl
  | cons o ops ih =>
    rw [run_cons]
    have hlen : c.old.length ≤ (step c o).1.old.length := by
      obtain ⟨_, _, hf⟩ := step_frame c o
      rcases hf with ⟨_, _, _, hl, _⟩ | ⟨free, t, _, _, _, _, hs⟩
      · rw [hl]; exact Nat.le_refl _
      · rw [hs]; simp [Conn.swap]
    rw [ih _ (by omega)]
    cases o with
    | recv j m =>
      simp only [step]
      split
      · rw [(at_fields c j (Tr.take m) (fun t => ⟨rfl, rfl⟩)).2.2.2.2.2.1]
      · rfl
    | send d =>
      simp only [step, Conn.sendto]
      split
      · rfl
      · split
        · split <;> rfl
        · rfl
    | sendTo d a =>
      simp only [step, Conn.sendto]
      split
      · rfl
      · split
        · rfl
        · split
          · split <;> rfl
          · rfl
    | setRemote a => simp only [step]; split <;> rfl
    | read ok =>
      simp only [step]
      split
      · split
        · rfl
        · rw [fromTr_append]
          have : ¬ c.old.length = k := by omega
          simp [fromTr, this]
      · rfl
    | disable => rfl
    | err k => simp only [step]; split <;> rfl
    | lost j =>
      simp only [step]
      split
      · exact congrArg _ (at_fields c j Tr.over (fun t => ⟨rfl, rfl⟩)).2.2.2.2.2.1
      · rfl
    | start => simp only [step]; split <;> rfl
    | finish => simp only [step]; split <;> rfl
    | restart o =>
      by_cases hg : c.running = false ∧ c.enabled = false
      · cases o with
        | refused => simp only [step, if_pos hg]
        | up free =>
          rcases he : endpoint c.kw free with e | t <;> simp only [step, if_pos hg, he] <;> rfl
      · simp only [step, if_neg hg]

/-! ### Who may disable a connection -/

/-- C77: an enabled connection is disabled only by somebody who asks for it, by a message whose processing
failed, or by an error or a loss of a transport it has or had. -/
theorem C77_disabled (c : Conn) (o : Op) (he : c.enabled = true) (hd : (step c o).1.enabled = false) :
    o = .disable ∨ (o = .read false ∧ c.running = true ∧ c.cur.queue ≠ []) ∨
    ∃ k t, c.tr? k = some t ∧
      ((o = .err k ∧ c.tcp = false ∧ t.phase = .up) ∨ (o = .lost k ∧ c.tcp = true ∧ t.phase ≠ .gone)) := by
  cases o with
  | recv k m =>
    simp only [step] at hd
    split at hd
    · rw [(at_fields c k (Tr.take m) (fun t => ⟨rfl, rfl⟩)).2.2.2.2.2.2.2.2.2.2.2, he] at hd; cases hd
    · rw [he] at hd; cases hd
  | send d =>
    simp only [step, Conn.sendto] at hd
    exfalso
    split at hd
    · rw [he] at hd; cases hd
    · split at hd
      · split at hd <;> exact absurd (he.symm.trans hd) (by decide)
      · simp only at hd; rw [he] at hd; cases hd
  | sendTo d a =>
    simp only [step, Conn.sendto] at hd
    exfalso
    split at hd
    · rw [he] at hd; cases hd
    · split at hd
      · rw [he] at hd; cases hd
      · split at hd
        · split at hd <;> exact absurd (he.symm.trans hd) (by decide)
        · simp only at hd; rw [he] at hd; cases hd
  | setRemote a =>
    simp only [step] at hd
    split at hd <;> exact absurd (he.symm.trans hd) (by decide)
  | read ok =>
    by_cases hr : c.running ∧ c.enabled
    · simp only [step, if_pos hr] at hd
      rcases hq : c.cur.queue with _ | ⟨m, q⟩
      · rw [hq] at hd; simp only at hd; rw [he] at hd; cases hd
      · rw [hq] at hd; simp only at hd; subst hd
        exact Or.inr (Or.inl ⟨rfl, by simpa using hr.1, by simp⟩)
    · simp only [step, if_neg hr] at hd; rw [he] at hd; cases hd
  | disable => exact Or.inl rfl
  | err k =>
    simp only [step] at hd
    split at hd
    · rename_i h
      rcases hc : c.tr? k with _ | t
      · rw [hc] at h; exact absurd h.2 (by simp)
      · rw [hc] at h
        exact Or.inr (Or.inr ⟨k, t, hc, Or.inl ⟨rfl, h.1, by simpa using h.2⟩⟩)
    · rw [he] at hd; cases hd
  | lost k =>
    simp only [step] at hd
    split at hd
    · rename_i h
      rcases hc : c.tr? k with _ | t
      · rw [hc] at h; exact absurd h.2 (by simp)
      · rw [hc] at h
        refine Or.inr (Or.inr ⟨k, t, hc, Or.inr ⟨rfl, h.1, ?_⟩⟩)
        rcases h.2 with h2 | h2 <;> (simp only [Option.map_some, Option.some.injEq] at h2; rw [h2]; decide)
    · rw [he] at hd; cases hd
  | start => simp only [step] at hd; split at hd <;> exact absurd (he.symm.trans hd) (by decide)
  | finish =>
    have : ¬ (c.running = true ∧ c.enabled = false) := by rw [he]; simp
    simp only [step, if_neg this] at hd; rw [he] at hd; cases hd
  | restart o =>
    have : ¬ (c.running = false ∧ c.enabled = false) := by rw [he]; simp
    simp only [step, if_neg this] at hd; rw [he] at hd; cases hd

/-- C77. A new connection knows both of its ends: the accepted one those of its socket, the made one the
address asked for. -/
theorem C77_ends (sock peer r free : Addr) :
    ((accepted sock peer).localA = sock ∧ (accepted sock peer).remote = some peer ∧ (accepted sock peer).enabled = true) ∧
    ∃ c, createTcp r free = .ok c ∧ c.localA = free ∧ c.remote = some r ∧ c.cur.peer = some r ∧ c.enabled = true :=
  ⟨⟨rfl, rfl, rfl⟩, _, rfl, rfl, rfl, rfl, rfl⟩

/-- C77. A TCP connection, made or accepted, whatever happened to it, is disabled when its transport is lost; errors of
datagrams and other remote addresses do not concern it. -/
theorem C77_tcp (c : Conn) (h : (∃ sock peer, c = accepted sock peer) ∨ ∃ r free, createTcp r free = .ok c) (ops : List Op) :
    ((run c ops).cur.phase ≠ .gone →
      (step (run c ops) (.lost (run c ops).old.length)).1.enabled = false ∧
      (step (run c ops) (.lost (run c ops).old.length)).1.cur.phase = .gone) ∧
    (∀ k, (step (run c ops) (.err k)).1 = run c ops) ∧ ∀ a, (step (run c ops) (.setRemote a)).1 = run c ops := by
  have ht : c.tcp = true := by
    rcases h with ⟨sock, peer, rfl⟩ | ⟨r, free, h⟩
    · rfl
    · cases h; rfl
  have hr : ∀ (ops : List Op) (c : Conn), c.tcp = true → (run c ops).tcp = true := by
    intro ops
    induction ops with
    | nil => intro c h; exact h
    | cons o ops ih => intro c h; rw [run_cons]; exact ih _ ((step_frame c o).2.1.trans h)
  have ht' := hr ops c ht
  generalize run c ops = s at ht'
  refine ⟨fun hp => ?_, fun k => ?_, fun a => ?_⟩
  · have htr : s.tr? s.old.length = some s.cur := by unfold Conn.tr?; simp
    have hc : s.tcp = true ∧ ((s.tr? s.old.length).map Tr.phase = some .up ∨
        (s.tr? s.old.length).map Tr.phase = some .closing) := by
      refine ⟨ht', ?_⟩
      rw [htr]
      cases hph : s.cur.phase with
      | up => left; simp [hph]
      | closing => right; simp [hph]
      | gone => exact absurd hph hp
    simp only [step, if_pos hc]
    refine ⟨trivial, ?_⟩
    simp [Conn.at, Tr.over]
  · simp [step, ht']
  · simp [step, ht']

/-- C77, that the end of a replaced transport does not matter is false of the code: when the loop finishes
with one late, because there was still something to write, the restarted connection is disabled although its
own transport is open and nothing is wrong with it. -/
theorem C77_late_fails (c : Conn) (k : Nat) (t : Tr) (ht : c.tcp = true) (hk : c.old[k]? = some t)
    (hp : t.phase = .closing) :
    (step c (.lost k)).1.enabled = false ∧ (step c (.lost k)).1.cur = c.cur := by
  have hlt : k < c.old.length := by
    rcases Nat.lt_or_ge k c.old.length with h | h
    · exact h
    · rw [List.getElem?_eq_none h] at hk; cases hk
  have htr : c.tr? k = some t := by unfold Conn.tr?; rw [List.getElem?_append_left hlt]; exact hk
  have hc : c.tcp = true ∧ ((c.tr? k).map Tr.phase = some .up ∨ (c.tr? k).map Tr.phase = some .closing) :=
    ⟨ht, Or.inr (by rw [htr]; exact congrArg some hp)⟩
  simp only [step, if_pos hc]
  refine ⟨trivial, ?_⟩
  have : ¬ k = c.old.length := by omega
  simp [Conn.at, this]

/-- C77, closing what is replaced is false of the code: a connection that is disabled before it is processed
is restarted without closing the transport it had, which stays open whatever happens to the connection,
until its peer ends it. -/
theorem C77_unclosed_fails (c : Conn) (h : Fresh c) (f : Addr) (later : List Op)
    (hl : Op.lost 0 ∉ later) (hk : c.kw ≠ ⟨none, none⟩) :
    ∃ t, (run c (.disable :: .restart (.up f) :: later)).old[0]? = some t ∧ t.phase = .up := by
  obtain ⟨h1, h2, h3, h4, h5, h6, h7, h8⟩ := h.bare
  have he : ∃ t, endpoint c.kw f = .ok t := by
    unfold endpoint
    rcases ha : c.kw with ⟨a, b⟩
    rw [ha] at hk
    cases a with
    | none =>
      cases b with
      | none => exact absurd rfl hk
      | some r => exact ⟨_, rfl⟩
    | some a => exact ⟨_, rfl⟩
  obtain ⟨t, he⟩ := he
  have hs : (run c [.disable, .restart (.up f)]).old = [c.cur] := by
    show (step ({ c with enabled := false } : Conn) (.restart (.up f))).1.old = [c.cur]
    simp only [step, h7, he]
    simp [Conn.swap, h1]
  have : ∀ (s : Conn), (∃ t, s.old[0]? = some t ∧ t.phase = .up) →
      ∃ t, (run s later).old[0]? = some t ∧ t.phase = .up := by
    intro s
    induction later generalizing s with
    | nil => exact id
    | cons o later ih =>
      intro ⟨t, ht, hp⟩
      refine ih (fun hm => hl (List.mem_cons_of_mem _ hm)) _ ?_
      show ∃ t, (step s o).1.old[0]? = some t ∧ t.phase = .up
      have hpos : 0 < s.old.length := by
        rcases Nat.eq_zero_or_pos s.old.length with h0 | h0
        · rw [List.getElem?_eq_none (by omega)] at ht; cases ht
        · exact h0
      have hat : ∀ (k : Nat) (g : Tr → Tr), (k ≠ 0 ∨ ∀ t, (g t).phase = t.phase) →
          ∃ t, (s.at k g).old[0]? = some t ∧ t.phase = .up := by
        intro k g hg
        unfold Conn.at
        split
        · exact ⟨t, ht, hp⟩
        · simp only [List.getElem?_modify, ht]
          by_cases hk0 : k = 0
          · rcases hg with hg | hg
            · exact absurd hk0 hg
            · simp [hk0, hg, hp]
          · simp [hk0, hp]
      have hst := step_frame s o
      cases o with
      | recv k m =>
        simp only [step]
        split
        · exact hat k _ (Or.inr fun t => rfl)
        · exact ⟨t, ht, hp⟩
      | lost k =>
        simp only [step]
        split
        · refine hat k _ (Or.inl ?_)
          rintro rfl
          exact hl (List.mem_cons_self ..)
        · exact ⟨t, ht, hp⟩
      | send d =>
        simp only [step, Conn.sendto]
        split
        · exact ⟨t, ht, hp⟩
        · split
          · split <;> exact ⟨t, ht, hp⟩
          · exact ⟨t, ht, hp⟩
      | sendTo d a =>
        simp only [step, Conn.sendto]
        split
        · exact ⟨t, ht, hp⟩
        · split
          · exact ⟨t, ht, hp⟩
          · split
            · split <;> exact ⟨t, ht, hp⟩
            · exact ⟨t, ht, hp⟩
      | setRemote a => simp only [step]; split <;> exact ⟨t, ht, hp⟩
      | read ok =>
        simp only [step]
        split
        · split <;> exact ⟨t, ht, hp⟩
        · exact ⟨t, ht, hp⟩
      | disable => exact ⟨t, ht, hp⟩
      | err k => simp only [step]; split <;> exact ⟨t, ht, hp⟩
      | start => simp only [step]; split <;> exact ⟨t, ht, hp⟩
      | finish => simp only [step]; split <;> exact ⟨t, ht, hp⟩
      | restart o =>
        rcases hst.2.2 with _ | ⟨free, t', ho, hr, hen, he', hs'⟩
        · by_cases hg : s.running = false ∧ s.enabled = false
          · cases o with
            | refused => simp only [step, if_pos hg]; exact ⟨t, ht, hp⟩
            | up free =>
              rcases he' : endpoint s.kw free with e | t'
              · simp only [step, if_pos hg, he']; exact ⟨t, ht, hp⟩
              · simp only [step, if_pos hg, he', Conn.swap]
                exact ⟨t, by rw [List.getElem?_append_left hpos]; exact ht, hp⟩
          · simp only [step, if_neg hg]; exact ⟨t, ht, hp⟩
        · rw [hs']
          simp only [Conn.swap]
          exact ⟨t, by rw [List.getElem?_append_left hpos]; exact ht, hp⟩
  have hrun : run c (.disable :: .restart (.up f) :: later)
      = run (run c [.disable, .restart (.up f)]) later := rfl
  rw [hrun]
  exact this _ ⟨c.cur, by rw [hs]; rfl, h8⟩

/-- C77, restarting is false of the code for the server's side: every attempt raises, and nothing changes. -/
theorem C77_server_fails (sock peer : Addr) (ops : List Op) (o : Outcome)
    (hd : (run (accepted sock peer) ops).enabled = false)
    (hr : (run (accepted sock peer) ops).running = false) :
    step (run (accepted sock peer) ops) (.restart o) = (run (accepted sock peer) ops, some .value) := by
  have hkw : ∀ c, (run c ops).kw = c.kw := by
    intro c
    clear hd hr
    induction ops generalizing c with
    | nil => rfl
    | cons o ops ih => exact (ih _).trans (step_frame c o).1
  have hk : (run (accepted sock peer) ops).kw = ⟨none, none⟩ := hkw _
  cases o with
  | refused => simp only [step, if_pos (And.intro hr hd), hk, if_true]
  | up free => simp only [step, if_pos (And.intro hr hd), hk, endpoint]

/-! ### Cases -/

private def peerA : Addr := ("10.0.0.1", 7)
private def freeA : Addr := ("0.0.0.0", 40000)
private def freeB : Addr := ("0.0.0.0", 40001)

/-- The course of one restart: processed, disabled, closed, restarted, processed again. -/
def courseOps (f : Addr) : List Op := [.start, .disable, .finish, .restart (.up f), .start]

/-- C77: cases. A connected UDP connection still reaches its peer after a restart; one that is not connected
does not; a message that waited is lost; a TCP connection is disabled by the end of its first transport. -/
theorem C77_cases :
    ((createUdp true none (some peerA) freeA).toOption.map fun c =>
      (run c (.send [1] :: courseOps freeB ++ [.send [2]])).sent) = some [([1], peerA), ([2], peerA)] ∧
    ((createUdp false none (some peerA) freeA).toOption.map fun c =>
      let s := run c (.send [1] :: courseOps freeB ++ [.send [2]])
      (s.sent, s.tx, s.remote, s.localA)) = some ([([1], peerA)], 2, none, freeB) ∧
    ((createUdp true none (some peerA) freeA).toOption.map fun c =>
      let s := run c [.start, .recv 0 ([1], peerA), .recv 0 ([2], peerA), .read true, .disable, .finish,
        .restart (.up freeB), .start, .recv 1 ([3], peerA), .read true, .read true]
      (s.log, s.latest)) = some ([(0, [1], peerA), (1, [3], peerA)], some peerA) ∧
    ((createTcp peerA freeA).toOption.map fun c =>
      let s := run c (courseOps freeB)
      (s.enabled, s.old.map Tr.phase, (step s (.lost 0)).1.enabled, (step s (.lost 0)).1.cur.phase))
      = some (true, [.closing], false, .up) ∧
    (step (run (accepted freeA peerA) [.start, .disable, .finish]) (.restart (.up freeB))).2 = some .value ∧
    Connected peerA { init true ⟨freeA, some peerA, .up, [], []⟩ with kw := ⟨none, some peerA⟩ } := by
  refine ⟨by decide +kernel, by rfl, by rfl, by decide +kernel, by decide +kernel, ?_⟩
  exact Or.inr ⟨freeA, rfl⟩

end Verif.Restart
