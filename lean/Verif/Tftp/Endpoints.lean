import Verif.Base
/-!
C90: which transfer a TFTP datagram reaches — the endpoint dictionaries of one connection
(`net/udp/tftp/base.py`) under any number of transfers with any number of hosts.

An endpoint object is named by the address it was created for: an address gets an object only while
it has no entry, and entries are never removed, so names are unique. Several entries of
`_endpoints` may lead to one object. `hn` is the `hostname` function (net/util.py 137–155), a
parameter: several names may have the same host name. The lock of an endpoint is left out: tasks may
take their steps in any order, which includes the orders the lock allows. `blocks` and `gotA` keep what a
task sees when its event is set.
-/
namespace Verif.Tftp.Endpoints

/-- `IPv4Host`, net/util.py 18–22: compared as a tuple. -/
structure Addr where
  name : String
  port : Nat
  deriving DecidableEq

/-- The parts of `TftpEndpoint` the datagrams concern, endpoint.py 56–68. `waitA`, `waitB` are the
keys of `awaiting_acks` and `awaiting_blocks`; `gotA` is the state of the last event made for an
acknowledgement. -/
structure Ep where
  addr : Addr
  waitB : Nat → Bool
  blocks : Nat → Option Bytes
  waitA : Nat → Bool
  gotA : Nat → Bool

/-- A new `TftpEndpoint`, endpoint.py 39–77. -/
def Ep.new (a : Addr) : Ep := ⟨a, fun _ => false, fun _ => none, fun _ => false, fun _ => false⟩

/-- What is sent. -/
inductive Out where
  | request
  | data (block : Nat) (d : Bytes)
  | ack (block : Nat)
  | error
  deriving DecidableEq

/-- A connection, base.py 131–133: `eps` is `_endpoints`, `obj` the endpoint objects, `fb` and `fa`
are `_awaiting_first_block` and `_awaiting_first_ack`; `out` lists what was sent and to whom. -/
structure Conn where
  eps : Addr → Option Addr
  obj : Addr → Ep
  fb : String → Option Addr
  fa : String → Option Addr
  out : List (Addr × Out)

/-- `init`, base.py 59–134. -/
def Conn.init : Conn := ⟨fun _ => none, Ep.new, fun _ => none, fun _ => none, []⟩

/-- Changing one object. -/
def Conn.upd (c : Conn) (e : Addr) (f : Ep → Ep) : Conn :=
  { c with obj := fun x => if x = e then f (c.obj x) else c.obj x }

/-- `endpoint`, base.py 164–185: look the object up, or make one. -/
def Conn.find (c : Conn) (a : Addr) : Conn × Addr :=
  match c.eps a with
  | some e => (c, e)
  | none =>
    ({ c with
       eps := fun x => if x = a then some a else c.eps x
       obj := fun x => if x = a then Ep.new a else c.obj x }, a)

/-- `_send_message`, base.py 258–274. -/
def Conn.send (c : Conn) (a : Addr) (m : Out) : Conn := { c with out := c.out ++ [(a, m)] }

/-- `send_error` with an address, base.py 230–256: it also looks the endpoint up for its log. -/
def Conn.sendError (c : Conn) (a : Addr) : Conn := ((c.send a .error).find a).1

/-- `awaiting_blocks[k] = event`. -/
def Ep.awaitBlock (k : Nat) (e : Ep) : Ep := { e with waitB := fun j => j == k || e.waitB j }

/-- `awaiting_acks[k] = event`. -/
def Ep.awaitAck (k : Nat) (e : Ep) : Ep :=
  { e with waitA := fun j => j == k || e.waitA j, gotA := fun j => j != k && e.gotA j }

/-- `awaiting_blocks.pop(k, None)`, __init__.py 72 and endpoint.py 201. -/
def Ep.dropBlock (k : Nat) (e : Ep) : Ep := { e with waitB := fun j => j != k && e.waitB j }

/-- `awaiting_acks.pop(k, None)`, __init__.py 169 and endpoint.py 281. -/
def Ep.dropAck (k : Nat) (e : Ep) : Ep := { e with waitA := fun j => j != k && e.waitA j }

/-- `del endpoint.blocks[idx]`, __init__.py 87 and endpoint.py 200. -/
def Ep.take (k : Nat) (e : Ep) : Ep := { e with blocks := fun j => if j = k then none else e.blocks j }

/-- The expected branch of `handle_data`, endpoint.py 114–117. -/
def Ep.store (k : Nat) (d : Bytes) (e : Ep) : Ep :=
  { e with
    blocks := fun j => if j = k then some d else e.blocks j
    waitB := fun j => j != k && e.waitB j }

/-- The expected branch of `handle_ack`, endpoint.py 129–131. -/
def Ep.acked (k : Nat) (e : Ep) : Ep :=
  { e with waitA := fun j => j != k && e.waitA j, gotA := fun j => j == k || e.gotA j }

/-- `handle_data` of an endpoint, endpoint.py 111–124. -/
def Conn.epData (c : Conn) (e : Addr) (k : Nat) (d : Bytes) : Conn :=
  if (c.obj e).waitB k = true then c.upd e (Ep.store k d) else c.sendError (c.obj e).addr

/-- `handle_ack` of an endpoint, endpoint.py 126–141. -/
def Conn.epAck (c : Conn) (e : Addr) (k : Nat) : Conn :=
  if (c.obj e).waitA k = true then c.upd e (Ep.acked k) else c

/-- `update_from_other`, endpoint.py 78–83, with the new entry made before it (base.py 311, 331):
the object `t` takes the address of the object `e`, and that address leads to it. -/
def Conn.adopt (c : Conn) (t e : Addr) : Conn :=
  { c with
    eps := fun x => if x = (c.obj e).addr then some t else c.eps x
    obj := fun x => if x = t then { c.obj t with addr := (c.obj e).addr } else c.obj x }

variable (hn : String → String)

/-- The host name of an address, net/util.py 36–39. -/
def Addr.host (a : Addr) : String := hn a.name

/-- `_await_first_block`, base.py 150–162. -/
def Conn.firstBlock (c : Conn) (a : Addr) : Conn :=
  let r := c.find a
  let h := (r.1.obj r.2).addr.host hn
  { r.1.upd r.2 (Ep.awaitBlock 1) with fb := fun x => if x = h then some r.2 else r.1.fb x }

/-- `_await_first_ack`, base.py 136–148. -/
def Conn.firstAck (c : Conn) (a : Addr) : Conn :=
  let r := c.find a
  let h := (r.1.obj r.2).addr.host hn
  { r.1.upd r.2 (Ep.awaitAck 0) with fa := fun x => if x = h then some r.2 else r.1.fa x }

/-- `_handle_data`, base.py 298–314. -/
def Conn.handleData (c : Conn) (a : Addr) (k : Nat) (d : Bytes) : Conn :=
  let r := c.find a
  let h := (r.1.obj r.2).addr.host hn
  if k = 1 then
    match r.1.fb h with
    | some t =>
      (({ r.1 with fb := fun x => if x = h then none else r.1.fb x } : Conn).adopt t r.2).epData t k d
    | none => r.1.epData r.2 k d
  else r.1.epData r.2 k d

/-- `_handle_ack`, base.py 316–334. -/
def Conn.handleAck (c : Conn) (a : Addr) (k : Nat) : Conn :=
  let r := c.find a
  let h := (r.1.obj r.2).addr.host hn
  if k = 0 then
    match r.1.fa h with
    | some t =>
      (({ r.1 with fa := fun x => if x = h then none else r.1.fa x } : Conn).adopt t r.2).epAck t k
    | none => r.1.epAck r.2 k
  else r.1.epAck r.2 k

/-- What happens to a connection. A task of an endpoint is named by its object.
`startRead`/`startWrite`: a request begins (__init__.py 49, 155). `request`: it (re)sends the request
to the address the caller gave (59, 159). `awaitBlock`, `awaitAck`: a task prepares for the next
block or acknowledgement (__init__.py 101–102, endpoint.py 168–169, 271–272). `giveUpBlock`,
`giveUpAck`: a time-out (__init__.py 72, 169). `take`: a block is written out. `send`: a task
(re)sends to the object's address (endpoint.py 90, 102, __init__.py 54). `data`, `ack`: datagrams.
`lookup`: a request, or an error, arrives (base.py 281, 292, 353). `refuse`: the request cannot be
served (endpoint.py 333–365). `unknown`: a datagram with an unknown opcode (base.py 366–367), for a
connection whose `remote_address` is given. -/
inductive Op where
  | startRead (a : Addr)
  | startWrite (a : Addr)
  | request (a : Addr)
  | awaitBlock (e : Addr) (k : Nat)
  | awaitAck (e : Addr) (k : Nat)
  | giveUpBlock (e : Addr) (k : Nat)
  | giveUpAck (e : Addr) (k : Nat)
  | take (e : Addr) (k : Nat)
  | send (e : Addr) (m : Out)
  | data (a : Addr) (k : Nat) (d : Bytes)
  | ack (a : Addr) (k : Nat)
  | lookup (a : Addr)
  | refuse (e : Addr)
  | unknown (sender remote : Addr)

/-- One event. -/
def Conn.step (c : Conn) : Op → Conn
  | .startRead a => c.firstBlock hn a
  | .startWrite a => c.firstAck hn a
  | .request a => c.send a .request
  | .awaitBlock e k => c.upd e (Ep.awaitBlock k)
  | .awaitAck e k => c.upd e (Ep.awaitAck k)
  | .giveUpBlock e k => c.upd e (Ep.dropBlock k)
  | .giveUpAck e k => c.upd e (Ep.dropAck k)
  | .take e k => c.upd e (Ep.take k)
  | .send e m => c.send (c.obj e).addr m
  | .data a k d => c.handleData hn a k d
  | .ack a k => c.handleAck hn a k
  | .lookup a => (c.find a).1
  | .refuse e => c.sendError (c.obj e).addr
  | .unknown _ r => c.sendError r

/-- Any number of events. -/
def Conn.run (c : Conn) : List Op → Conn
  | [] => c
  | o :: os => (c.step hn o).run os

/-- The host an event concerns: the host asked, the sender, or the host of the task's endpoint. -/
def Op.host : Op → String
  | .startRead a | .startWrite a | .request a | .awaitBlock a _ | .awaitAck a _ | .giveUpBlock a _
  | .giveUpAck a _ | .take a _ | .send a _ | .data a _ _ | .ack a _ | .lookup a | .refuse a
  | .unknown a _ => a.host hn

/-- Not a datagram with an unknown opcode. -/
def Op.known : Op → Bool
  | .unknown .. => false
  | _ => true

/-- What concerns host `h` in two connections is equal: its entries, its endpoint objects, the
pending first answers, and everything sent to it. -/
structure Same (h : String) (c c' : Conn) : Prop where
  eps : ∀ a : Addr, a.host hn = h → c.eps a = c'.eps a
  obj : ∀ a : Addr, a.host hn = h → c.obj a = c'.obj a
  fb : c.fb h = c'.fb h
  fa : c.fa h = c'.fa h
  out : c.out.filter (fun x => x.1.host hn == h) = c'.out.filter (fun x => x.1.host hn == h)

/-- Objects stay with their host. -/
structure Wf (c : Conn) : Prop where
  addr : ∀ e : Addr, (c.obj e).addr.host hn = e.host hn
  eps : ∀ a e : Addr, c.eps a = some e → e.host hn = a.host hn
  fb : ∀ h (e : Addr), c.fb h = some e → e.host hn = h
  fa : ∀ h (e : Addr), c.fa h = some e → e.host hn = h

variable {hn}

theorem wf_init : Wf hn .init :=
  ⟨fun _ => rfl, fun _ _ h => by simp [Conn.init] at h, fun _ _ h => by simp [Conn.init] at h,
    fun _ _ h => by simp [Conn.init] at h⟩

theorem find_snd_host {c : Conn} (w : Wf hn c) (a : Addr) : (c.find a).2.host hn = a.host hn := by
  unfold Conn.find
  split
  · exact w.eps _ _ ‹_›
  · rfl

theorem wf_find {c : Conn} (w : Wf hn c) (a : Addr) : Wf hn (c.find a).1 := by
  unfold Conn.find
  split
  · exact w
  · refine ⟨fun e => ?_, fun x e => ?_, w.fb, w.fa⟩
    · dsimp only; split
      · next h => subst h; rfl
      · exact w.addr e
    · dsimp only; split
      · next h => intro he; cases he; rw [h]
      · exact w.eps x e

theorem wf_upd {c : Conn} (w : Wf hn c) (e : Addr) (f : Ep → Ep) (hf : ∀ x, (f x).addr = x.addr) :
    Wf hn (c.upd e f) := by
  refine ⟨fun x => ?_, w.eps, w.fb, w.fa⟩
  unfold Conn.upd
  dsimp only
  split
  · rw [hf]; exact w.addr x
  · exact w.addr x

theorem wf_send {c : Conn} (w : Wf hn c) (a : Addr) (m : Out) : Wf hn (c.send a m) :=
  ⟨w.addr, w.eps, w.fb, w.fa⟩

theorem wf_sendError {c : Conn} (w : Wf hn c) (a : Addr) : Wf hn (c.sendError a) :=
  wf_find (wf_send w a .error) a

theorem wf_epData {c : Conn} (w : Wf hn c) (e : Addr) (k : Nat) (d : Bytes) :
    Wf hn (c.epData e k d) := by
  unfold Conn.epData
  split
  · exact wf_upd w _ _ (fun _ => rfl)
  · exact wf_sendError w _

theorem wf_epAck {c : Conn} (w : Wf hn c) (e : Addr) (k : Nat) : Wf hn (c.epAck e k) := by
  unfold Conn.epAck
  split
  · exact wf_upd w _ _ (fun _ => rfl)
  · exact w

theorem wf_adopt {c : Conn} (w : Wf hn c) (t e : Addr) (h : t.host hn = e.host hn) :
    Wf hn (c.adopt t e) := by
  refine ⟨fun x => ?_, fun a x => ?_, w.fb, w.fa⟩
  · unfold Conn.adopt
    dsimp only
    split
    · next hx => subst hx; dsimp only; rw [w.addr e, h]
    · exact w.addr x
  · unfold Conn.adopt
    dsimp only
    split
    · next hx => intro he; cases he; rw [hx, w.addr e, h]
    · exact w.eps a x

theorem wf_fbset {c : Conn} (w : Wf hn c) (h : String) (v : Option Addr)
    (hv : ∀ e : Addr, v = some e → e.host hn = h) :
    Wf hn { c with fb := fun x => if x = h then v else c.fb x } := by
  refine ⟨w.addr, w.eps, fun x e => ?_, w.fa⟩
  dsimp only
  split
  · next hx => intro he; rw [hv e he, hx]
  · exact w.fb x e

theorem wf_faset {c : Conn} (w : Wf hn c) (h : String) (v : Option Addr)
    (hv : ∀ e : Addr, v = some e → e.host hn = h) :
    Wf hn { c with fa := fun x => if x = h then v else c.fa x } := by
  refine ⟨w.addr, w.eps, w.fb, fun x e => ?_⟩
  dsimp only
  split
  · next hx => intro he; rw [hv e he, hx]
  · exact w.fa x e

theorem wf_step {c : Conn} (w : Wf hn c) (o : Op) : Wf hn (c.step hn o) := by
  cases o with
  | startRead a =>
    have w1 := wf_find w a
    exact wf_fbset (wf_upd w1 (c.find a).2 (Ep.awaitBlock 1) (fun _ => rfl)) _ _
      (fun e he => by cases he; exact (w1.addr _).symm)
  | startWrite a =>
    have w1 := wf_find w a
    exact wf_faset (wf_upd w1 (c.find a).2 (Ep.awaitAck 0) (fun _ => rfl)) _ _
      (fun e he => by cases he; exact (w1.addr _).symm)
  | request a => exact wf_send w _ _
  | awaitBlock e k => exact wf_upd w _ _ (fun _ => rfl)
  | awaitAck e k => exact wf_upd w _ _ (fun _ => rfl)
  | giveUpBlock e k => exact wf_upd w _ _ (fun _ => rfl)
  | giveUpAck e k => exact wf_upd w _ _ (fun _ => rfl)
  | take e k => exact wf_upd w _ _ (fun _ => rfl)
  | send e m => exact wf_send w _ _
  | data a k d =>
    have w1 := wf_find w a
    show Wf hn (c.handleData hn a k d)
    unfold Conn.handleData
    dsimp only
    split
    · split
      · next t ht =>
        have := w1.fb _ _ ht
        exact wf_epData (wf_adopt (wf_fbset w1 _ none (fun _ h => by cases h)) _ _
          (by rw [this, w1.addr])) _ _ _
      · exact wf_epData w1 _ _ _
    · exact wf_epData w1 _ _ _
  | ack a k =>
    have w1 := wf_find w a
    show Wf hn (c.handleAck hn a k)
    unfold Conn.handleAck
    dsimp only
    split
    · split
      · next t ht =>
        have := w1.fa _ _ ht
        exact wf_epAck (wf_adopt (wf_faset w1 _ none (fun _ h => by cases h)) _ _
          (by rw [this, w1.addr])) _ _
      · exact wf_epAck w1 _ _
    · exact wf_epAck w1 _ _
  | lookup a => exact wf_find w a
  | refuse e => exact wf_sendError w _
  | unknown s r => exact wf_sendError w _

theorem wf_run {c : Conn} (w : Wf hn c) (os : List Op) : Wf hn (c.run hn os) := by
  induction os generalizing c with
  | nil => exact w
  | cons o os ih => exact ih (wf_step w o)

/-! ### An event of another host changes nothing here -/

namespace Same

theorem refl (h : String) (c : Conn) : Same hn h c c :=
  ⟨fun _ _ => rfl, fun _ _ => rfl, rfl, rfl, rfl⟩

theorem trans {h : String} {a b c : Conn} (x : Same hn h a b) (y : Same hn h b c) : Same hn h a c :=
  ⟨fun e he => (x.eps e he).trans (y.eps e he), fun e he => (x.obj e he).trans (y.obj e he),
    x.fb.trans y.fb, x.fa.trans y.fa, x.out.trans y.out⟩

end Same

variable {h : String}

theorem off_find {c : Conn} {a : Addr} (ha : a.host hn ≠ h) : Same hn h (c.find a).1 c := by
  unfold Conn.find
  split
  · exact .refl _ _
  · refine ⟨fun x hx => ?_, fun x hx => ?_, rfl, rfl, rfl⟩
    · exact if_neg (fun e : x = a => ha (e ▸ hx))
    · exact if_neg (fun e : x = a => ha (e ▸ hx))

theorem off_upd {c : Conn} {e : Addr} (f : Ep → Ep) (he : e.host hn ≠ h) :
    Same hn h (c.upd e f) c :=
  ⟨fun _ _ => rfl, fun x hx => if_neg (fun e' : x = e => he (e' ▸ hx)), rfl, rfl, rfl⟩

theorem off_send {c : Conn} {a : Addr} (m : Out) (ha : a.host hn ≠ h) : Same hn h (c.send a m) c := by
  refine ⟨fun _ _ => rfl, fun _ _ => rfl, rfl, rfl, ?_⟩
  unfold Conn.send
  rw [List.filter_append]
  simp [ha]

theorem off_sendError {c : Conn} {a : Addr} (ha : a.host hn ≠ h) : Same hn h (c.sendError a) c :=
  (off_find ha).trans (off_send _ ha)

theorem off_epData {c : Conn} (w : Wf hn c) {e : Addr} (k : Nat) (d : Bytes) (he : e.host hn ≠ h) :
    Same hn h (c.epData e k d) c := by
  unfold Conn.epData
  split
  · exact off_upd _ he
  · exact off_sendError (by rw [w.addr]; exact he)

theorem off_epAck {c : Conn} {e : Addr} (k : Nat) (he : e.host hn ≠ h) :
    Same hn h (c.epAck e k) c := by
  unfold Conn.epAck
  split
  · exact off_upd _ he
  · exact .refl _ _

theorem off_adopt {c : Conn} (w : Wf hn c) {t e : Addr} (he : e.host hn ≠ h) (ht : t.host hn ≠ h) :
    Same hn h (c.adopt t e) c := by
  refine ⟨fun x hx => ?_, fun x hx => ?_, rfl, rfl, rfl⟩
  · refine if_neg (fun e' => he ?_)
    rw [← w.addr e, ← e', hx]
  · exact if_neg (fun e' : x = t => ht (e' ▸ hx))

theorem off_fbset {c : Conn} {g : String} (v : Option Addr) (hg : g ≠ h) :
    Same hn h { c with fb := fun x => if x = g then v else c.fb x } c :=
  ⟨fun _ _ => rfl, fun _ _ => rfl, if_neg (Ne.symm hg), rfl, rfl⟩

theorem off_faset {c : Conn} {g : String} (v : Option Addr) (hg : g ≠ h) :
    Same hn h { c with fa := fun x => if x = g then v else c.fa x } c :=
  ⟨fun _ _ => rfl, fun _ _ => rfl, rfl, if_neg (Ne.symm hg), rfl⟩

theorem off_step {c : Conn} (w : Wf hn c) (o : Op) (hk : o.known = true) (ho : o.host hn ≠ h) :
    Same hn h (c.step hn o) c := by
  cases o with
  | startRead a =>
    have ho : a.host hn ≠ h := ho
    have w1 := wf_find w a
    have h2 : (c.find a).2.host hn ≠ h := by rw [find_snd_host w]; exact ho
    exact (off_fbset (c := (c.find a).1.upd (c.find a).2 (Ep.awaitBlock 1)) _
      (by rw [w1.addr]; exact h2)).trans ((off_upd _ h2).trans (off_find ho))
  | startWrite a =>
    have ho : a.host hn ≠ h := ho
    have w1 := wf_find w a
    have h2 : (c.find a).2.host hn ≠ h := by rw [find_snd_host w]; exact ho
    exact (off_faset (c := (c.find a).1.upd (c.find a).2 (Ep.awaitAck 0)) _
      (by rw [w1.addr]; exact h2)).trans ((off_upd _ h2).trans (off_find ho))
  | request a => exact off_send _ ho
  | awaitBlock e k => exact off_upd _ ho
  | awaitAck e k => exact off_upd _ ho
  | giveUpBlock e k => exact off_upd _ ho
  | giveUpAck e k => exact off_upd _ ho
  | take e k => exact off_upd _ ho
  | send e m => exact off_send _ (by rw [w.addr]; exact ho)
  | data a k d =>
    have ho : a.host hn ≠ h := ho
    have w1 := wf_find w a
    have h2 : (c.find a).2.host hn ≠ h := by rw [find_snd_host w]; exact ho
    have h3 : ((c.find a).1.obj (c.find a).2).addr.host hn ≠ h := by rw [w1.addr]; exact h2
    show Same hn h (c.handleData hn a k d) c
    unfold Conn.handleData
    dsimp only
    split
    · split
      · next t ht =>
        have h4 : t.host hn ≠ h := by rw [w1.fb _ _ ht]; exact h3
        have w2 := wf_fbset w1 (((c.find a).1.obj (c.find a).2).addr.host hn) none
          (fun _ h => by cases h)
        exact (off_epData (wf_adopt w2 t (c.find a).2 (by rw [w1.fb _ _ ht, w1.addr])) _ _ h4).trans
          ((off_adopt w2 h2 h4).trans ((off_fbset none h3).trans (off_find ho)))
      · exact (off_epData w1 _ _ h2).trans (off_find ho)
    · exact (off_epData w1 _ _ h2).trans (off_find ho)
  | ack a k =>
    have ho : a.host hn ≠ h := ho
    have w1 := wf_find w a
    have h2 : (c.find a).2.host hn ≠ h := by rw [find_snd_host w]; exact ho
    have h3 : ((c.find a).1.obj (c.find a).2).addr.host hn ≠ h := by rw [w1.addr]; exact h2
    show Same hn h (c.handleAck hn a k) c
    unfold Conn.handleAck
    dsimp only
    split
    · split
      · next t ht =>
        have h4 : t.host hn ≠ h := by rw [w1.fa _ _ ht]; exact h3
        have w2 := wf_faset w1 (((c.find a).1.obj (c.find a).2).addr.host hn) none
          (fun _ h => by cases h)
        exact (off_epAck _ h4).trans
          ((off_adopt w2 h2 h4).trans ((off_faset none h3).trans (off_find ho)))
      · exact (off_epAck _ h2).trans (off_find ho)
    · exact (off_epAck _ h2).trans (off_find ho)
  | lookup a => exact off_find ho
  | refuse e => exact off_sendError (by rw [w.addr]; exact ho)
  | unknown s r => simp [Op.known] at hk

/-! ### An event of this host does the same in both -/

theorem on_find {c c' : Conn} (s : Same hn h c c') {a : Addr} (ha : a.host hn = h) :
    Same hn h (c.find a).1 (c'.find a).1 ∧ (c.find a).2 = (c'.find a).2 := by
  unfold Conn.find
  rw [← s.eps a ha]
  cases c.eps a with
  | some e => exact ⟨s, rfl⟩
  | none =>
    refine ⟨⟨fun x hx => ?_, fun x hx => ?_, s.fb, s.fa, s.out⟩, rfl⟩
    · dsimp only; split
      · rfl
      · exact s.eps x hx
    · dsimp only; split
      · rfl
      · exact s.obj x hx

theorem on_upd {c c' : Conn} (s : Same hn h c c') (e : Addr) (f : Ep → Ep) :
    Same hn h (c.upd e f) (c'.upd e f) := by
  refine ⟨s.eps, fun x hx => ?_, s.fb, s.fa, s.out⟩
  unfold Conn.upd
  dsimp only
  rw [s.obj x hx]

theorem on_send {c c' : Conn} (s : Same hn h c c') (a : Addr) (m : Out) :
    Same hn h (c.send a m) (c'.send a m) := by
  refine ⟨s.eps, s.obj, s.fb, s.fa, ?_⟩
  unfold Conn.send
  rw [List.filter_append, List.filter_append, s.out]

theorem on_sendError {c c' : Conn} (s : Same hn h c c') {a : Addr} (ha : a.host hn = h) :
    Same hn h (c.sendError a) (c'.sendError a) :=
  (on_find (on_send s a .error) ha).1

theorem on_epData {c c' : Conn} (w : Wf hn c) (s : Same hn h c c') {e : Addr} (k : Nat) (d : Bytes)
    (he : e.host hn = h) : Same hn h (c.epData e k d) (c'.epData e k d) := by
  unfold Conn.epData
  rw [← s.obj e he]
  split
  · exact on_upd s _ _
  · exact on_sendError s (by rw [w.addr]; exact he)

theorem on_epAck {c c' : Conn} (s : Same hn h c c') {e : Addr} (k : Nat)
    (he : e.host hn = h) : Same hn h (c.epAck e k) (c'.epAck e k) := by
  unfold Conn.epAck
  rw [← s.obj e he]
  split
  · exact on_upd s _ _
  · exact s

theorem on_adopt {c c' : Conn} (s : Same hn h c c') {t e : Addr} (he : e.host hn = h)
    (ht : t.host hn = h) : Same hn h (c.adopt t e) (c'.adopt t e) := by
  refine ⟨fun x hx => ?_, fun x hx => ?_, s.fb, s.fa, s.out⟩
  · unfold Conn.adopt
    dsimp only
    rw [s.obj e he, s.eps x hx]
  · unfold Conn.adopt
    dsimp only
    rw [s.obj e he, s.obj t ht, s.obj x hx]

theorem on_fbset {c c' : Conn} (s : Same hn h c c') (g : String) (v : Option Addr) :
    Same hn h { c with fb := fun x => if x = g then v else c.fb x }
      { c' with fb := fun x => if x = g then v else c'.fb x } := by
  refine ⟨s.eps, s.obj, ?_, s.fa, s.out⟩
  dsimp only
  rw [s.fb]

theorem on_faset {c c' : Conn} (s : Same hn h c c') (g : String) (v : Option Addr) :
    Same hn h { c with fa := fun x => if x = g then v else c.fa x }
      { c' with fa := fun x => if x = g then v else c'.fa x } := by
  refine ⟨s.eps, s.obj, s.fb, ?_, s.out⟩
  dsimp only
  rw [s.fa]

theorem on_step {c c' : Conn} (w : Wf hn c) (s : Same hn h c c') (o : Op)
    (hk : o.known = true) (ho : o.host hn = h) : Same hn h (c.step hn o) (c'.step hn o) := by
  cases o with
  | startRead a =>
    have ho : a.host hn = h := ho
    obtain ⟨s1, e1⟩ := on_find s ho
    have h2 : (c.find a).2.host hn = h := by rw [find_snd_host w]; exact ho
    show Same hn h (c.firstBlock hn a) (c'.firstBlock hn a)
    unfold Conn.firstBlock
    dsimp only
    rw [← e1, ← s1.obj _ h2]
    exact on_fbset (on_upd s1 _ _) _ _
  | startWrite a =>
    have ho : a.host hn = h := ho
    obtain ⟨s1, e1⟩ := on_find s ho
    have h2 : (c.find a).2.host hn = h := by rw [find_snd_host w]; exact ho
    show Same hn h (c.firstAck hn a) (c'.firstAck hn a)
    unfold Conn.firstAck
    dsimp only
    rw [← e1, ← s1.obj _ h2]
    exact on_faset (on_upd s1 _ _) _ _
  | request a => exact on_send s _ _
  | awaitBlock e k => exact on_upd s _ _
  | awaitAck e k => exact on_upd s _ _
  | giveUpBlock e k => exact on_upd s _ _
  | giveUpAck e k => exact on_upd s _ _
  | take e k => exact on_upd s _ _
  | send e m =>
    show Same hn h (c.send (c.obj e).addr m) (c'.send (c'.obj e).addr m)
    rw [← s.obj e ho]
    exact on_send s _ _
  | data a k d =>
    have ho : a.host hn = h := ho
    obtain ⟨s1, e1⟩ := on_find s ho
    have w1 := wf_find w a
    have h2 : (c.find a).2.host hn = h := by rw [find_snd_host w]; exact ho
    have h3 : ((c.find a).1.obj (c.find a).2).addr.host hn = h := by rw [w1.addr]; exact h2
    show Same hn h (c.handleData hn a k d) (c'.handleData hn a k d)
    unfold Conn.handleData
    dsimp only
    rw [← e1, ← s1.obj _ h2, h3, ← s1.fb]
    split
    · cases hf : (c.find a).1.fb h with
      | none => exact on_epData w1 s1 _ _ h2
      | some t =>
        have h4 : t.host hn = h := w1.fb _ _ hf
        exact on_epData (wf_adopt (wf_fbset w1 h none (fun _ h => by cases h)) _ _ (by rw [h4, h2]))
          (on_adopt (on_fbset s1 h none) h2 h4) _ _ h4
    · exact on_epData w1 s1 _ _ h2
  | ack a k =>
    have ho : a.host hn = h := ho
    obtain ⟨s1, e1⟩ := on_find s ho
    have w1 := wf_find w a
    have h2 : (c.find a).2.host hn = h := by rw [find_snd_host w]; exact ho
    have h3 : ((c.find a).1.obj (c.find a).2).addr.host hn = h := by rw [w1.addr]; exact h2
    show Same hn h (c.handleAck hn a k) (c'.handleAck hn a k)
    unfold Conn.handleAck
    dsimp only
    rw [← e1, ← s1.obj _ h2, h3, ← s1.fa]
    split
    · cases hf : (c.find a).1.fa h with
      | none => exact on_epAck s1 _ h2
      | some t =>
        have h4 : t.host hn = h := w1.fa _ _ hf
        exact on_epAck (on_adopt (on_faset s1 h none) h2 h4) _ h4
    · exact on_epAck s1 _ h2
  | lookup a => exact (on_find s ho).1
  | refuse e =>
    show Same hn h (c.sendError (c.obj e).addr) (c'.sendError (c'.obj e).addr)
    rw [← s.obj e ho]
    exact on_sendError s (by rw [w.addr]; exact ho)
  | unknown x r => simp [Op.known] at hk

theorem same_run {c c' : Conn} (w : Wf hn c) (w' : Wf hn c') (s : Same hn h c c') (os : List Op)
    (hk : ∀ o ∈ os, o.known = true) :
    Same hn h (c.run hn os) (c'.run hn (os.filter (fun o => o.host hn == h))) := by
  induction os generalizing c c' with
  | nil => exact s
  | cons o os ih =>
    have hk' : ∀ o ∈ os, o.known = true := fun x hx => hk x (List.mem_cons_of_mem _ hx)
    by_cases ho : o.host hn = h
    · rw [List.filter_cons_of_pos (by simp [ho])]
      exact ih (wf_step w o) (wf_step w' o) (on_step w s o (hk o List.mem_cons_self) ho) hk'
    · rw [List.filter_cons_of_neg (by simp [ho])]
      exact ih (wf_step w o) w' ((off_step w o (hk o List.mem_cons_self) ho).trans s) hk'

/-- C90: transfers with one host are not disturbed by what happens with other hosts. Whatever happens
on a connection — any transfers with any hosts in any order, any datagrams from anyone, time-outs —
the blocks and acknowledgements each endpoint of a host has received, what it still waits for, where
its answers go and everything sent to that host are exactly what they would be if only the events of
that host had happened. Missing from the full statement (hence `_partial`): a datagram with an
unknown opcode is answered to the connection's own remote address, not to its sender
(`C90_unknown_fails`). -/
theorem C90_isolated_partial (h : String) (os : List Op) (hk : ∀ o ∈ os, o.known = true) :
    let c := Conn.init.run hn os
    let c' := Conn.init.run hn (os.filter (fun o => o.host hn == h))
    (∀ e : Addr, e.host hn = h → c.obj e = c'.obj e) ∧
    c.out.filter (fun x => x.1.host hn == h) = c'.out.filter (fun x => x.1.host hn == h) := by
  have s := same_run (hn := hn) (h := h) wf_init wf_init (Same.refl h (Conn.init)) os hk
  exact ⟨s.obj, s.out⟩

/-! ### The transfer a datagram reaches -/

/-- Every object that is referred to still has an entry of its own. -/
structure Own (c : Conn) : Prop where
  eps : ∀ a e : Addr, c.eps a = some e → c.eps e ≠ none
  fb : ∀ h (e : Addr), c.fb h = some e → c.eps e ≠ none
  fa : ∀ h (e : Addr), c.fa h = some e → c.eps e ≠ none

theorem own_init : Own .init :=
  ⟨fun _ _ h => by simp [Conn.init] at h, fun _ _ h => by simp [Conn.init] at h,
    fun _ _ h => by simp [Conn.init] at h⟩

theorem find_keeps {c : Conn} {x : Addr} (hx : c.eps x ≠ none) (a : Addr) :
    (c.find a).1.eps x = c.eps x := by
  unfold Conn.find
  split
  · rfl
  · next hn => exact if_neg (fun e : x = a => hx (e ▸ hn))

theorem find_own {c : Conn} (w : Own c) (a : Addr) :
    Own (c.find a).1 ∧ (c.find a).1.eps (c.find a).2 ≠ none := by
  unfold Conn.find
  split
  · next e he => exact ⟨w, w.eps _ _ he⟩
  · next hn =>
    have keep : ∀ x, c.eps x ≠ none → (if x = a then some a else c.eps x) ≠ none := by
      intro x hx
      split
      · simp
      · exact hx
    refine ⟨⟨fun x e => ?_, fun x e he => keep _ (w.fb _ _ he), fun x e he => keep _ (w.fa _ _ he)⟩, ?_⟩
    · dsimp only
      intro hx
      split at hx
      · cases hx; simp
      · exact keep _ (w.eps _ _ hx)
    · simp

theorem own_sendError {c : Conn} (w : Own c) (a : Addr) : Own (c.sendError a) :=
  (find_own (c := c.send a .error) ⟨w.eps, w.fb, w.fa⟩ a).1

theorem own_epData {c : Conn} (w : Own c) (e : Addr) (k : Nat) (d : Bytes) : Own (c.epData e k d) := by
  unfold Conn.epData
  split
  · exact ⟨w.eps, w.fb, w.fa⟩
  · exact own_sendError w _

theorem own_epAck {c : Conn} (w : Own c) (e : Addr) (k : Nat) : Own (c.epAck e k) := by
  unfold Conn.epAck
  split
  · exact ⟨w.eps, w.fb, w.fa⟩
  · exact w

theorem own_adopt {c : Conn} (w : Own c) (t e : Addr) (ht : c.eps t ≠ none) : Own (c.adopt t e) := by
  have keep : ∀ x, c.eps x ≠ none → (if x = (c.obj e).addr then some t else c.eps x) ≠ none := by
    intro x hx
    split
    · simp
    · exact hx
  refine ⟨fun x y => ?_, fun x y hy => keep _ (w.fb _ _ hy), fun x y hy => keep _ (w.fa _ _ hy)⟩
  unfold Conn.adopt
  dsimp only
  intro hx
  split at hx
  · cases hx; exact keep _ ht
  · exact keep _ (w.eps _ _ hx)

theorem own_fbset {c : Conn} (w : Own c) (h : String) (v : Option Addr)
    (hv : ∀ e : Addr, v = some e → c.eps e ≠ none) :
    Own { c with fb := fun x => if x = h then v else c.fb x } := by
  refine ⟨w.eps, fun x e => ?_, w.fa⟩
  dsimp only
  split
  · exact hv e
  · exact w.fb x e

theorem own_faset {c : Conn} (w : Own c) (h : String) (v : Option Addr)
    (hv : ∀ e : Addr, v = some e → c.eps e ≠ none) :
    Own { c with fa := fun x => if x = h then v else c.fa x } := by
  refine ⟨w.eps, w.fb, fun x e => ?_⟩
  dsimp only
  split
  · exact hv e
  · exact w.fa x e

theorem own_step {c : Conn} (w : Own c) (o : Op) : Own (c.step hn o) := by
  have triv : ∀ {c' : Conn}, c'.eps = c.eps → c'.fb = c.fb → c'.fa = c.fa → Own c' := by
    intro c' h1 h2 h3
    exact ⟨by rw [h1]; exact w.eps, by rw [h1, h2]; exact w.fb, by rw [h1, h3]; exact w.fa⟩
  cases o with
  | startRead a =>
    obtain ⟨w1, h1⟩ := find_own w a
    exact own_fbset (c := (c.find a).1.upd (c.find a).2 (Ep.awaitBlock 1)) ⟨w1.eps, w1.fb, w1.fa⟩ _ _
      (fun e he => by cases he; exact h1)
  | startWrite a =>
    obtain ⟨w1, h1⟩ := find_own w a
    exact own_faset (c := (c.find a).1.upd (c.find a).2 (Ep.awaitAck 0)) ⟨w1.eps, w1.fb, w1.fa⟩ _ _
      (fun e he => by cases he; exact h1)
  | request a => exact triv rfl rfl rfl
  | awaitBlock e k => exact triv rfl rfl rfl
  | awaitAck e k => exact triv rfl rfl rfl
  | giveUpBlock e k => exact triv rfl rfl rfl
  | giveUpAck e k => exact triv rfl rfl rfl
  | take e k => exact triv rfl rfl rfl
  | send e m => exact triv rfl rfl rfl
  | data a k d =>
    obtain ⟨w1, h1⟩ := find_own w a
    show Own (c.handleData hn a k d)
    unfold Conn.handleData
    dsimp only
    split
    · split
      · next t ht =>
        exact own_epData (own_adopt (own_fbset w1 _ none (fun _ h => by cases h)) _ _
          (w1.fb _ _ ht)) _ _ _
      · exact own_epData w1 _ _ _
    · exact own_epData w1 _ _ _
  | ack a k =>
    obtain ⟨w1, h1⟩ := find_own w a
    show Own (c.handleAck hn a k)
    unfold Conn.handleAck
    dsimp only
    split
    · split
      · next t ht =>
        exact own_epAck (own_adopt (own_faset w1 _ none (fun _ h => by cases h)) _ _
          (w1.fa _ _ ht)) _ _
      · exact own_epAck w1 _ _
    · exact own_epAck w1 _ _
  | lookup a => exact (find_own w a).1
  | refuse e => exact own_sendError w _
  | unknown s r => exact own_sendError w _

theorem own_run {c : Conn} (w : Own c) (os : List Op) : Own (c.run hn os) := by
  induction os generalizing c with
  | nil => exact w
  | cons o os ih => exact ih (own_step w o)

/-- The address `b` leads to the object `e`, and that object answers to `b`. -/
structure Link (e b : Addr) (c : Conn) : Prop where
  eps : c.eps b = some e
  addr : (c.obj e).addr = b
  own : c.eps e ≠ none

variable {e b : Addr}

theorem link_find {c : Conn} (l : Link e b c) (a : Addr) : Link e b (c.find a).1 := by
  have h1 := find_keeps (c := c) (x := b) (by rw [l.eps]; simp) a
  have h2 := find_keeps (c := c) (x := e) l.own a
  refine ⟨h1.trans l.eps, ?_, by rw [h2]; exact l.own⟩
  unfold Conn.find
  split
  · exact l.addr
  · next hn =>
    show (if e = a then Ep.new a else c.obj e).addr = b
    rw [if_neg (fun h : e = a => l.own (h ▸ hn))]
    exact l.addr

theorem link_upd {c : Conn} (l : Link e b c) (x : Addr) (f : Ep → Ep) (hf : ∀ y, (f y).addr = y.addr) :
    Link e b (c.upd x f) := by
  refine ⟨l.eps, ?_, l.own⟩
  show (if e = x then f (c.obj e) else c.obj e).addr = b
  split
  · rw [hf]; exact l.addr
  · exact l.addr

theorem link_sendError {c : Conn} (l : Link e b c) (x : Addr) : Link e b (c.sendError x) :=
  link_find (c := c.send x .error) ⟨l.eps, l.addr, l.own⟩ x

theorem link_epData {c : Conn} (l : Link e b c) (x : Addr) (k : Nat) (d : Bytes) :
    Link e b (c.epData x k d) := by
  unfold Conn.epData
  split
  · exact link_upd l _ _ (fun _ => rfl)
  · exact link_sendError l _

theorem link_epAck {c : Conn} (l : Link e b c) (x : Addr) (k : Nat) : Link e b (c.epAck x k) := by
  unfold Conn.epAck
  split
  · exact link_upd l _ _ (fun _ => rfl)
  · exact l

theorem link_adopt {c : Conn} (w : Wf hn c) (l : Link e b c) {t x : Addr}
    (ht : t.host hn ≠ b.host hn) (hx : x.host hn ≠ b.host hn) : Link e b (c.adopt t x) := by
  have he : e.host hn = b.host hn := w.eps _ _ l.eps
  have h1 : b ≠ (c.obj x).addr := fun h => hx (by rw [← w.addr x, ← h])
  refine ⟨(if_neg h1).trans l.eps, ?_, ?_⟩
  · show (if e = t then { c.obj t with addr := (c.obj x).addr } else c.obj e).addr = b
    rw [if_neg (fun h : e = t => ht (h ▸ he))]
    exact l.addr
  · show (if e = (c.obj x).addr then some t else c.eps e) ≠ none
    split
    · simp
    · exact l.own

/-- No transfer with host `h` begins. -/
def Op.quiet (hn : String → String) (h : String) : Op → Bool
  | .startRead a | .startWrite a => a.host hn != h
  | _ => true

/-- No first answer of host `h` is awaited. -/
def NoPend (h : String) (c : Conn) : Prop := c.fb h = none ∧ c.fa h = none

theorem find_fb {c : Conn} (a : Addr) : (c.find a).1.fb = c.fb := by
  unfold Conn.find; split <;> rfl

theorem find_fa {c : Conn} (a : Addr) : (c.find a).1.fa = c.fa := by
  unfold Conn.find; split <;> rfl

theorem find_out {c : Conn} (a : Addr) : (c.find a).1.out = c.out := by
  unfold Conn.find; split <;> rfl

theorem sendError_fb {c : Conn} (a : Addr) : (c.sendError a).fb = c.fb := find_fb (c := c.send a .error) a

theorem sendError_fa {c : Conn} (a : Addr) : (c.sendError a).fa = c.fa := find_fa (c := c.send a .error) a

theorem epData_fb {c : Conn} (x : Addr) (k : Nat) (d : Bytes) : (c.epData x k d).fb = c.fb := by
  unfold Conn.epData
  split
  · rfl
  · exact sendError_fb _

theorem epData_fa {c : Conn} (x : Addr) (k : Nat) (d : Bytes) : (c.epData x k d).fa = c.fa := by
  unfold Conn.epData
  split
  · rfl
  · exact sendError_fa _

theorem epAck_fb {c : Conn} (x : Addr) (k : Nat) : (c.epAck x k).fb = c.fb := by
  unfold Conn.epAck
  split <;> rfl

theorem epAck_fa {c : Conn} (x : Addr) (k : Nat) : (c.epAck x k).fa = c.fa := by
  unfold Conn.epAck
  split <;> rfl

theorem quiet_fb {c : Conn} (w : Wf hn c) (o : Op) (hq : o.quiet hn h = true) (hp : c.fb h = none) :
    (c.step hn o).fb h = none := by
  cases o with
  | startRead a =>
    have hq : a.host hn ≠ h := by simpa [Op.quiet] using hq
    have w1 := wf_find w a
    show (if h = ((c.find a).1.obj (c.find a).2).addr.host hn then some (c.find a).2
      else (c.find a).1.fb h) = none
    rw [w1.addr, find_snd_host w, if_neg (Ne.symm hq), find_fb]
    exact hp
  | startWrite a =>
    show (c.find a).1.fb h = none
    rw [find_fb]; exact hp
  | data a k d =>
    show (c.handleData hn a k d).fb h = none
    unfold Conn.handleData
    dsimp only
    split
    · split
      · rw [epData_fb]
        show (if h = ((c.find a).1.obj (c.find a).2).addr.host hn then none
          else (c.find a).1.fb h) = none
        split
        · rfl
        · rw [find_fb]; exact hp
      · rw [epData_fb, find_fb]; exact hp
    · rw [epData_fb, find_fb]; exact hp
  | ack a k =>
    show (c.handleAck hn a k).fb h = none
    unfold Conn.handleAck
    dsimp only
    split
    · split
      · rw [epAck_fb]
        show (c.find a).1.fb h = none
        rw [find_fb]; exact hp
      · rw [epAck_fb, find_fb]; exact hp
    · rw [epAck_fb, find_fb]; exact hp
  | lookup a => show (c.find a).1.fb h = none; rw [find_fb]; exact hp
  | refuse e => show (c.sendError _).fb h = none; rw [sendError_fb]; exact hp
  | unknown s r => show (c.sendError _).fb h = none; rw [sendError_fb]; exact hp
  | request a => exact hp
  | awaitBlock e k => exact hp
  | awaitAck e k => exact hp
  | giveUpBlock e k => exact hp
  | giveUpAck e k => exact hp
  | take e k => exact hp
  | send e m => exact hp

theorem quiet_fa {c : Conn} (w : Wf hn c) (o : Op) (hq : o.quiet hn h = true) (hp : c.fa h = none) :
    (c.step hn o).fa h = none := by
  cases o with
  | startWrite a =>
    have hq : a.host hn ≠ h := by simpa [Op.quiet] using hq
    have w1 := wf_find w a
    show (if h = ((c.find a).1.obj (c.find a).2).addr.host hn then some (c.find a).2
      else (c.find a).1.fa h) = none
    rw [w1.addr, find_snd_host w, if_neg (Ne.symm hq), find_fa]
    exact hp
  | startRead a =>
    show (c.find a).1.fa h = none
    rw [find_fa]; exact hp
  | ack a k =>
    show (c.handleAck hn a k).fa h = none
    unfold Conn.handleAck
    dsimp only
    split
    · split
      · rw [epAck_fa]
        show (if h = ((c.find a).1.obj (c.find a).2).addr.host hn then none
          else (c.find a).1.fa h) = none
        split
        · rfl
        · rw [find_fa]; exact hp
      · rw [epAck_fa, find_fa]; exact hp
    · rw [epAck_fa, find_fa]; exact hp
  | data a k d =>
    show (c.handleData hn a k d).fa h = none
    unfold Conn.handleData
    dsimp only
    split
    · split
      · rw [epData_fa]
        show (c.find a).1.fa h = none
        rw [find_fa]; exact hp
      · rw [epData_fa, find_fa]; exact hp
    · rw [epData_fa, find_fa]; exact hp
  | lookup a => show (c.find a).1.fa h = none; rw [find_fa]; exact hp
  | refuse e => show (c.sendError _).fa h = none; rw [sendError_fa]; exact hp
  | unknown s r => show (c.sendError _).fa h = none; rw [sendError_fa]; exact hp
  | request a => exact hp
  | awaitBlock e k => exact hp
  | awaitAck e k => exact hp
  | giveUpBlock e k => exact hp
  | giveUpAck e k => exact hp
  | take e k => exact hp
  | send e m => exact hp

theorem link_step {c : Conn} (w : Wf hn c) (l : Link e b c) (hp : NoPend (b.host hn) c) (o : Op) :
    Link e b (c.step hn o) := by
  cases o with
  | startRead a =>
    have := link_upd (link_find l a) (c.find a).2 (Ep.awaitBlock 1) (fun _ => rfl)
    exact ⟨this.eps, this.addr, this.own⟩
  | startWrite a =>
    have := link_upd (link_find l a) (c.find a).2 (Ep.awaitAck 0) (fun _ => rfl)
    exact ⟨this.eps, this.addr, this.own⟩
  | request a => exact ⟨l.eps, l.addr, l.own⟩
  | awaitBlock x k => exact link_upd l _ _ (fun _ => rfl)
  | awaitAck x k => exact link_upd l _ _ (fun _ => rfl)
  | giveUpBlock x k => exact link_upd l _ _ (fun _ => rfl)
  | giveUpAck x k => exact link_upd l _ _ (fun _ => rfl)
  | take x k => exact link_upd l _ _ (fun _ => rfl)
  | send x m => exact ⟨l.eps, l.addr, l.own⟩
  | data a k d =>
    have w1 := wf_find w a
    have l1 := link_find l a
    show Link e b (c.handleData hn a k d)
    unfold Conn.handleData
    dsimp only
    split
    · split
      · next t ht =>
        have hne : ((c.find a).1.obj (c.find a).2).addr.host hn ≠ b.host hn := by
          intro hh
          rw [hh, find_fb, hp.1] at ht
          cases ht
        refine link_epData (link_adopt (wf_fbset w1 _ none (fun _ h => by cases h))
          ⟨l1.eps, l1.addr, l1.own⟩ ?_ ?_) _ _ _
        · rw [w1.fb _ _ ht]; exact hne
        · rw [← w1.addr]; exact hne
      · exact link_epData l1 _ _ _
    · exact link_epData l1 _ _ _
  | ack a k =>
    have w1 := wf_find w a
    have l1 := link_find l a
    show Link e b (c.handleAck hn a k)
    unfold Conn.handleAck
    dsimp only
    split
    · split
      · next t ht =>
        have hne : ((c.find a).1.obj (c.find a).2).addr.host hn ≠ b.host hn := by
          intro hh
          rw [hh, find_fa, hp.2] at ht
          cases ht
        refine link_epAck (link_adopt (wf_faset w1 _ none (fun _ h => by cases h))
          ⟨l1.eps, l1.addr, l1.own⟩ ?_ ?_) _ _
        · rw [w1.fa _ _ ht]; exact hne
        · rw [← w1.addr]; exact hne
      · exact link_epAck l1 _ _
    · exact link_epAck l1 _ _
  | lookup a => exact link_find l a
  | refuse x => exact link_sendError l _
  | unknown s r => exact link_sendError l _

theorem link_run {c : Conn} (w : Wf hn c) (l : Link e b c) (hp : NoPend (b.host hn) c) (os : List Op)
    (hq : ∀ o ∈ os, o.quiet hn (b.host hn) = true) :
    Link e b (c.run hn os) ∧ NoPend (b.host hn) (c.run hn os) ∧ Wf hn (c.run hn os) := by
  induction os generalizing c with
  | nil => exact ⟨l, hp, w⟩
  | cons o os ih =>
    have ho := hq o List.mem_cons_self
    exact ih (wf_step w o) (link_step w l hp o) ⟨quiet_fb w o ho hp.1, quiet_fa w o ho hp.2⟩
      (fun x hx => hq x (List.mem_cons_of_mem _ hx))

/-- A datagram of a linked address when no first answer is awaited. -/
theorem linked_data {c : Conn} (w : Wf hn c) (l : Link e b c) (hp : NoPend (b.host hn) c) (k : Nat)
    (d : Bytes) : c.step hn (.data b k d) = c.epData e k d := by
  have h1 : c.find b = (c, e) := by simp only [Conn.find, l.eps]
  show c.handleData hn b k d = _
  unfold Conn.handleData
  rw [h1]
  dsimp only
  rw [l.addr, hp.1]
  split <;> rfl

theorem linked_ack {c : Conn} (w : Wf hn c) (l : Link e b c) (hp : NoPend (b.host hn) c) (k : Nat) :
    c.step hn (.ack b k) = c.epAck e k := by
  have h1 : c.find b = (c, e) := by simp only [Conn.find, l.eps]
  show c.handleAck hn b k = _
  unfold Conn.handleAck
  rw [h1]
  dsimp only
  rw [l.addr, hp.2]
  split <;> rfl

theorem linked_other {c : Conn} (l : Link e b c) {x : Addr} (hx : x ≠ e) (k : Nat) (d : Bytes) :
    (c.epData e k d).obj x = c.obj x := by
  unfold Conn.epData
  split
  · exact if_neg hx
  · rw [l.addr]
    have h1 : (c.send b .error).find b = (c.send b .error, e) := by
      simp only [Conn.find, Conn.send, l.eps]
    unfold Conn.sendError
    rw [h1]
    rfl

theorem epData_stored {c : Conn} {x : Addr} {k : Nat} (hw : (c.obj x).waitB k = true) (d : Bytes) :
    ((c.epData x k d).obj x).blocks k = some d := by
  unfold Conn.epData
  rw [if_pos hw]
  simp [Conn.upd, Ep.store]

theorem epAck_got {c : Conn} {x : Addr} {k : Nat} (hw : (c.obj x).waitA k = true) :
    ((c.epAck x k).obj x).gotA k = true := by
  unfold Conn.epAck
  rw [if_pos hw]
  simp [Conn.upd, Ep.acked]

/-- The address `b` is new, or leads to an object that answers to it. -/
def Direct (c : Conn) (b : Addr) : Prop := ∀ x, c.eps b = some x → (c.obj x).addr = b

theorem direct_find {c : Conn} (hd : Direct c b) : ((c.find b).1.obj (c.find b).2).addr = b := by
  unfold Conn.find
  split
  · exact hd _ ‹_›
  · simp [Ep.new]

/-- The first block of a read: it reaches the awaiting object, which then answers to its sender. -/
theorem first_data {c : Conn} (w : Wf hn c) (ow : Own c) (hd : Direct c b)
    (hf : c.fb (b.host hn) = some e) (ha : c.fa (b.host hn) = none) (d : Bytes) :
    Link e b (c.step hn (.data b 1 d)) ∧ NoPend (b.host hn) (c.step hn (.data b 1 d)) ∧
    ((c.obj e).waitB 1 = true → ((c.step hn (.data b 1 d)).obj e).blocks 1 = some d) ∧
    ((c.obj e).waitB 1 = false → ∀ x, c.eps x ≠ none → x ≠ e →
      (c.step hn (.data b 1 d)).obj x = c.obj x) ∧
    ((c.obj e).waitB 1 = false → (c.step hn (.data b 1 d)).out = c.out ++ [(b, .error)]) := by
  have h1 := direct_find hd
  obtain ⟨ow1, -⟩ := find_own ow b
  have he : (c.find b).1.eps e ≠ none := by
    rw [find_keeps (ow.fb _ _ hf)]; exact ow.fb _ _ hf
  have hobj : ∀ x, c.eps x ≠ none → (c.find b).1.obj x = c.obj x := by
    intro x hx
    unfold Conn.find
    split
    · rfl
    · next hn => exact if_neg (fun h : x = b => hx (h ▸ hn))
  have hstep : c.step hn (.data b 1 d) =
      (({ (c.find b).1 with fb := fun x => if x = b.host hn then none else (c.find b).1.fb x } :
        Conn).adopt e (c.find b).2).epData e 1 d := by
    show c.handleData hn b 1 d = _
    unfold Conn.handleData
    dsimp only
    rw [if_pos rfl, h1, find_fb, hf]
  rw [hstep]
  have hlink : Link e b (({ (c.find b).1 with
      fb := fun x => if x = b.host hn then none else (c.find b).1.fb x } : Conn).adopt e
      (c.find b).2) := by
    refine ⟨?_, ?_, ?_⟩
    · show (if b = ((c.find b).1.obj (c.find b).2).addr then some e else _) = some e
      rw [h1, if_pos rfl]
    · show (if e = e then ({ (c.find b).1.obj e with
        addr := ((c.find b).1.obj (c.find b).2).addr } : Ep) else _).addr = b
      rw [if_pos rfl]; exact h1
    · show (if e = ((c.find b).1.obj (c.find b).2).addr then some e else (c.find b).1.eps e) ≠ none
      split
      · simp
      · exact he
  have hwait : ((({ (c.find b).1 with
      fb := fun x => if x = b.host hn then none else (c.find b).1.fb x } : Conn).adopt e
      (c.find b).2).obj e).waitB 1 = (c.obj e).waitB 1 := by
    show (if e = e then ({ (c.find b).1.obj e with
        addr := ((c.find b).1.obj (c.find b).2).addr } : Ep) else _).waitB 1 = _
    rw [if_pos rfl]
    show ((c.find b).1.obj e).waitB 1 = _
    rw [hobj e (ow.fb _ _ hf)]
  refine ⟨link_epData hlink _ _ _, ⟨?_, ?_⟩, ?_, ?_, ?_⟩
  · rw [epData_fb]
    show (if b.host hn = b.host hn then none else _) = none
    rw [if_pos rfl]
  · rw [epData_fa]
    show (c.find b).1.fa _ = none
    rw [find_fa]; exact ha
  · intro hw
    exact epData_stored (by rw [hwait]; exact hw) d
  · intro hw x hx hxe
    rw [linked_other hlink hxe]
    show (if x = e then _ else (c.find b).1.obj x) = _
    rw [if_neg hxe]
    exact hobj x hx
  · intro hw
    unfold Conn.epData
    rw [if_neg (by rw [hwait, hw]; simp), hlink.addr]
    unfold Conn.sendError
    rw [find_out]
    show (c.find b).1.out ++ _ = _
    rw [find_out]

/-- The first acknowledgement of a write, likewise. -/
theorem first_ack {c : Conn} (ow : Own c) (hd : Direct c b)
    (hf : c.fa (b.host hn) = some e) (ha : c.fb (b.host hn) = none) :
    Link e b (c.step hn (.ack b 0)) ∧ NoPend (b.host hn) (c.step hn (.ack b 0)) ∧
    ((c.obj e).waitA 0 = true → ((c.step hn (.ack b 0)).obj e).gotA 0 = true) := by
  have h1 := direct_find hd
  have he : (c.find b).1.eps e ≠ none := by
    rw [find_keeps (ow.fa _ _ hf)]; exact ow.fa _ _ hf
  have hobj : ∀ x, c.eps x ≠ none → (c.find b).1.obj x = c.obj x := by
    intro x hx
    unfold Conn.find
    split
    · rfl
    · next hn => exact if_neg (fun h : x = b => hx (h ▸ hn))
  have hstep : c.step hn (.ack b 0) =
      (({ (c.find b).1 with fa := fun x => if x = b.host hn then none else (c.find b).1.fa x } :
        Conn).adopt e (c.find b).2).epAck e 0 := by
    show c.handleAck hn b 0 = _
    unfold Conn.handleAck
    dsimp only
    rw [if_pos rfl, h1, find_fa, hf]
  rw [hstep]
  have hlink : Link e b (({ (c.find b).1 with
      fa := fun x => if x = b.host hn then none else (c.find b).1.fa x } : Conn).adopt e
      (c.find b).2) := by
    refine ⟨?_, ?_, ?_⟩
    · show (if b = ((c.find b).1.obj (c.find b).2).addr then some e else _) = some e
      rw [h1, if_pos rfl]
    · show (if e = e then ({ (c.find b).1.obj e with
        addr := ((c.find b).1.obj (c.find b).2).addr } : Ep) else _).addr = b
      rw [if_pos rfl]; exact h1
    · show (if e = ((c.find b).1.obj (c.find b).2).addr then some e else (c.find b).1.eps e) ≠ none
      split
      · simp
      · exact he
  have hwait : ((({ (c.find b).1 with
      fa := fun x => if x = b.host hn then none else (c.find b).1.fa x } : Conn).adopt e
      (c.find b).2).obj e).waitA 0 = (c.obj e).waitA 0 := by
    show (if e = e then ({ (c.find b).1.obj e with
        addr := ((c.find b).1.obj (c.find b).2).addr } : Ep) else _).waitA 0 = _
    rw [if_pos rfl]
    show ((c.find b).1.obj e).waitA 0 = _
    rw [hobj e (ow.fa _ _ hf)]
  refine ⟨link_epAck hlink _ _, ⟨?_, ?_⟩, ?_⟩
  · rw [epAck_fb]
    show (c.find b).1.fb _ = none
    rw [find_fb]; exact ha
  · rw [epAck_fa]
    show (if b.host hn = b.host hn then none else _) = none
    rw [if_pos rfl]
  · intro hw
    exact epAck_got (by rw [hwait]; exact hw)

/-- A read begins: the object of the address asked is the one awaiting the host's first block. -/
theorem started_read {c : Conn} (w : Wf hn c) (a : Addr) :
    (c.step hn (.startRead a)).fb (a.host hn) = some (c.find a).2 ∧
    (c.step hn (.startRead a)).fa = c.fa ∧
    ((c.step hn (.startRead a)).obj (c.find a).2).waitB 1 = true := by
  have w1 := wf_find w a
  refine ⟨?_, ?_, ?_⟩
  · show (if a.host hn = ((c.find a).1.obj (c.find a).2).addr.host hn then some (c.find a).2
      else _) = _
    rw [w1.addr, find_snd_host w, if_pos rfl]
  · show (c.find a).1.fa = c.fa
    rw [find_fa]
  · simp [Conn.step, Conn.firstBlock, Conn.upd, Ep.awaitBlock]

/-- A write begins. -/
theorem started_write {c : Conn} (w : Wf hn c) (a : Addr) :
    (c.step hn (.startWrite a)).fa (a.host hn) = some (c.find a).2 ∧
    (c.step hn (.startWrite a)).fb = c.fb ∧
    ((c.step hn (.startWrite a)).obj (c.find a).2).waitA 0 = true := by
  have w1 := wf_find w a
  refine ⟨?_, ?_, ?_⟩
  · show (if a.host hn = ((c.find a).1.obj (c.find a).2).addr.host hn then some (c.find a).2
      else _) = _
    rw [w1.addr, find_snd_host w, if_pos rfl]
  · show (c.find a).1.fb = c.fb
    rw [find_fb]
  · simp [Conn.step, Conn.firstAck, Conn.upd, Ep.awaitAck]

/-- C90: the one transfer with a host follows the address its server answers from. After any history
in which no write to the host of `a` awaits its first answer, let a read of `a` begin and let the
first block come from `b`, any address of that host (a new port, in general): it is the block the
read was waiting for. From then on, until another transfer with the host begins and whatever else
happens, every block from `b` the read waits for is stored for it, and everything the read sends goes
to `b`. -/
theorem C90_read_follows (pre rest : List Op) (a b : Addr) (d : Bytes)
    (hab : b.host hn = a.host hn) (hfa : (Conn.init.run hn pre).fa (a.host hn) = none) :
    let c := Conn.init.run hn pre
    let e := (c.find a).2
    let c1 := c.step hn (.startRead a)
    Direct c1 b → (∀ o ∈ rest, o.quiet hn (a.host hn) = true) →
    let c2 := c1.step hn (.data b 1 d)
    let c3 := c2.run hn rest
    (c2.obj e).blocks 1 = some d ∧
    (∀ k d', (c3.obj e).waitB k = true → ((c3.step hn (.data b k d')).obj e).blocks k = some d') ∧
    ∀ m, (c3.step hn (.send e m)).out = c3.out ++ [(b, m)] := by
  dsimp only
  intro hd hq
  have w := wf_run (hn := hn) wf_init pre
  have ow := own_run (hn := hn) own_init pre
  obtain ⟨s1, s2, s3⟩ := started_read (hn := hn) w a
  obtain ⟨l, np, hst, -, -⟩ := first_data (hn := hn) (wf_step w (.startRead a)) (own_step ow (.startRead a))
    hd (by rw [hab]; exact s1) (by rw [s2, hab]; exact hfa) d
  obtain ⟨l3, np3, w3⟩ := link_run (wf_step (wf_step w (.startRead a)) (.data b 1 d)) l np rest
    (by rw [hab]; exact hq)
  refine ⟨hst s3, fun k d' hw => ?_, fun m => ?_⟩
  · rw [linked_data w3 l3 np3]
    exact epData_stored hw d'
  · show _ ++ _ = _
    rw [l3.addr]

/-- C90, for a write: the first acknowledgement, from any address of the host asked, is the write's;
afterwards its blocks go to that address and the acknowledgements from there reach it. -/
theorem C90_write_follows (pre rest : List Op) (a b : Addr)
    (hab : b.host hn = a.host hn) (hfb : (Conn.init.run hn pre).fb (a.host hn) = none) :
    let c := Conn.init.run hn pre
    let e := (c.find a).2
    let c1 := c.step hn (.startWrite a)
    Direct c1 b → (∀ o ∈ rest, o.quiet hn (a.host hn) = true) →
    let c2 := c1.step hn (.ack b 0)
    let c3 := c2.run hn rest
    (c2.obj e).gotA 0 = true ∧
    (∀ k, (c3.obj e).waitA k = true → ((c3.step hn (.ack b k)).obj e).gotA k = true) ∧
    ∀ m, (c3.step hn (.send e m)).out = c3.out ++ [(b, m)] := by
  dsimp only
  intro hd hq
  have w := wf_run (hn := hn) wf_init pre
  have ow := own_run (hn := hn) own_init pre
  obtain ⟨s1, s2, s3⟩ := started_write (hn := hn) w a
  obtain ⟨l, np, hst⟩ := first_ack (hn := hn) (own_step ow (.startWrite a))
    hd (by rw [hab]; exact s1) (by rw [s2, hab]; exact hfb)
  obtain ⟨l3, np3, w3⟩ := link_run (wf_step (wf_step w (.startWrite a)) (.ack b 0)) l np rest
    (by rw [hab]; exact hq)
  refine ⟨hst s3, fun k hw => ?_, fun m => ?_⟩
  · rw [linked_ack w3 l3 np3]
    exact epAck_got hw
  · show _ ++ _ = _
    rw [l3.addr]

theorem find_obj {c : Conn} {x : Addr} (hx : c.eps x ≠ none) (a : Addr) :
    (c.find a).1.obj x = c.obj x := by
  unfold Conn.find
  split
  · rfl
  · next hn => exact if_neg (fun h : x = a => hx (h ▸ hn))

theorem find_snd_ne {c : Conn} (he : c.eps e ≠ none) {x : Addr} (hx : c.eps x ≠ some e) :
    (c.find x).2 ≠ e := by
  unfold Conn.find
  split
  · next y hy => intro h; exact hx (hy.trans (by rw [show y = e from h]))
  · next hn => intro h; exact he (by rw [← show x = e from h]; exact hn)

/-- C90: when no first answer of its host is awaited, a datagram from an address that is not an
endpoint's own changes nothing for that endpoint — after its server has answered, a read takes no
block from any other port of the host. -/
theorem C90_stranger (pre : List Op) (e x : Addr) (k : Nat) (d : Bytes) :
    let c := Conn.init.run hn pre
    c.fb (x.host hn) = none → c.fa (x.host hn) = none → c.eps e ≠ none → c.eps x ≠ some e →
    (c.step hn (.data x k d)).obj e = c.obj e ∧ (c.step hn (.ack x k)).obj e = c.obj e := by
  intro c hb ha he hx
  have w : Wf hn c := wf_run wf_init pre
  have w1 := wf_find w x
  have hne := find_snd_ne he hx
  have hfe : (c.find x).1.eps e ≠ none := by rw [find_keeps he]; exact he
  have hh : ((c.find x).1.obj (c.find x).2).addr.host hn = x.host hn := by
    rw [w1.addr, find_snd_host w]
  have hdat : ((c.find x).1.epData (c.find x).2 k d).obj e = c.obj e := by
    unfold Conn.epData
    split
    · show (if e = (c.find x).2 then _ else (c.find x).1.obj e) = _
      rw [if_neg (Ne.symm hne)]
      exact find_obj he x
    · unfold Conn.sendError
      rw [find_obj (c := (c.find x).1.send _ .error) hfe]
      exact find_obj he x
  have hack : ((c.find x).1.epAck (c.find x).2 k).obj e = c.obj e := by
    unfold Conn.epAck
    split
    · show (if e = (c.find x).2 then _ else (c.find x).1.obj e) = _
      rw [if_neg (Ne.symm hne)]
      exact find_obj he x
    · exact find_obj he x
  constructor
  · show (c.handleData hn x k d).obj e = _
    unfold Conn.handleData
    dsimp only
    rw [hh, find_fb, hb]
    split <;> exact hdat
  · show (c.handleAck hn x k).obj e = _
    unfold Conn.handleAck
    dsimp only
    rw [hh, find_fa, ha]
    split <;> exact hack

/-- C90: what comes after a task has given up waiting for it is not kept: neither a block nor an acknowledgement. -/
theorem C90_late (pre : List Op) (e x : Addr) (k : Nat) (d : Bytes) :
    let c := Conn.init.run hn pre
    c.eps e ≠ none →
    (((c.step hn (.giveUpBlock e k)).step hn (.data x k d)).obj e).blocks = (c.obj e).blocks ∧
    (((c.step hn (.giveUpAck e k)).step hn (.ack x k)).obj e).gotA = (c.obj e).gotA := by
  intro c he
  constructor
  · have hb : ∀ c : Conn, c.eps e ≠ none → (c.obj e).waitB k = false → ∀ t, ((c.epData t k d).obj e).blocks = (c.obj e).blocks := by
      intro c he hw t
      unfold Conn.epData
      split
      · next ht =>
        have hte : e ≠ t := by rintro rfl; rw [hw] at ht; cases ht
        simp [Conn.upd, hte]
      · unfold Conn.sendError
        rw [find_obj (c := c.send _ .error) he]
        rfl
    have h0 : (c.step hn (.giveUpBlock e k)).eps e ≠ none := he
    have h1 : ((c.step hn (.giveUpBlock e k)).obj e).waitB k = false := by simp [Conn.step, Conn.upd, Ep.dropBlock]
    have h2 : ((c.step hn (.giveUpBlock e k)).obj e).blocks = (c.obj e).blocks := by simp [Conn.step, Conn.upd, Ep.dropBlock]
    rw [← h2]
    revert h0 h1
    generalize c.step hn (.giveUpBlock e k) = c1
    intro h0 h1
    have f0 : (c1.find x).1.eps e ≠ none := by rw [find_keeps h0]; exact h0
    have f1 := find_obj h0 x
    show ((c1.handleData hn x k d).obj e).blocks = _
    unfold Conn.handleData
    dsimp only
    have plain : (((c1.find x).1.epData (c1.find x).2 k d).obj e).blocks = (c1.obj e).blocks := by
      rw [hb _ f0 (by rw [f1]; exact h1), f1]
    split
    · split
      · rw [hb]
        · simp only [Conn.adopt]; split
          · next h => subst h; simp only; rw [f1]
          · rw [f1]
        · simp only [Conn.adopt]; split
          · simp
          · exact f0
        · simp only [Conn.adopt]; split
          · next h => subst h; simp only; rw [f1]; exact h1
          · rw [f1]; exact h1
      · exact plain
    · exact plain
  · have hb : ∀ c : Conn, (c.obj e).waitA k = false → ∀ t, ((c.epAck t k).obj e).gotA = (c.obj e).gotA := by
      intro c hw t
      unfold Conn.epAck
      split
      · next ht =>
        have hte : e ≠ t := by rintro rfl; rw [hw] at ht; cases ht
        simp [Conn.upd, hte]
      · rfl
    have h0 : (c.step hn (.giveUpAck e k)).eps e ≠ none := he
    have h1 : ((c.step hn (.giveUpAck e k)).obj e).waitA k = false := by simp [Conn.step, Conn.upd, Ep.dropAck]
    have h2 : ((c.step hn (.giveUpAck e k)).obj e).gotA = (c.obj e).gotA := by simp [Conn.step, Conn.upd, Ep.dropAck]
    rw [← h2]
    revert h0 h1
    generalize c.step hn (.giveUpAck e k) = c1
    intro h0 h1
    have f1 := find_obj h0 x
    show ((c1.handleAck hn x k).obj e).gotA = _
    unfold Conn.handleAck
    dsimp only
    have plain : (((c1.find x).1.epAck (c1.find x).2 k).obj e).gotA = (c1.obj e).gotA := by
      rw [hb _ (by rw [f1]; exact h1), f1]
    split
    · split
      · rw [hb]
        · simp only [Conn.adopt]; split
          · next h => subst h; simp only; rw [f1]
          · rw [f1]
        · simp only [Conn.adopt]; split
          · next h => subst h; simp only; rw [f1]; exact h1
          · rw [f1]; exact h1
      · exact plain
    · exact plain

/-- C90: an endpoint begins with nothing awaited, received or acknowledged. An acknowledgement that is awaited counts
once: it is not awaited any longer, and the others are as before. A block taken is gone, and the others are as before. -/
theorem C90_counts (c : Conn) (e : Addr) (k j : Nat) :
    ((Ep.new e).waitA j = false ∧ (Ep.new e).waitB j = false ∧ (Ep.new e).gotA j = false ∧ (Ep.new e).blocks j = none) ∧
    ((c.epAck e k).obj e).waitA k = false ∧
    (j ≠ k → ((c.epAck e k).obj e).waitA j = (c.obj e).waitA j ∧ ((c.epAck e k).obj e).gotA j = (c.obj e).gotA j) ∧
    ((c.step hn (.take e k)).obj e).blocks k = none ∧
    (j ≠ k → ((c.step hn (.take e k)).obj e).blocks j = (c.obj e).blocks j) := by
  refine ⟨⟨rfl, rfl, rfl, rfl⟩, ?_, ?_, ?_, ?_⟩
  · unfold Conn.epAck
    split
    · simp [Conn.upd, Ep.acked]
    · next h => simpa using h
  · intro hj
    unfold Conn.epAck
    split
    · simp [Conn.upd, Ep.acked, hj]
    · exact ⟨rfl, rfl⟩
  · simp [Conn.step, Conn.upd, Ep.take]
  · intro hj; simp [Conn.step, Conn.upd, Ep.take, hj]

/-- Two reads from one host at the same time disturb each other: the first block of the first server
is given to the second read, and the first read never receives a block from its server, whatever
happens until another transfer with the host begins. -/
theorem C90_same_host_fails (pre rest : List Op) (a b : Addr) (d : Bytes)
    (hab : b.host hn = a.host hn) (hne : a ≠ b)
    (ha : (Conn.init.run hn pre).eps a = none) (hb : (Conn.init.run hn pre).eps b = none)
    (hfa : (Conn.init.run hn pre).fa (a.host hn) = none)
    (hq : ∀ o ∈ rest, o.quiet hn (a.host hn) = true) :
    let c := (Conn.init.run hn pre).run hn [.startRead a, .startRead b, .data a 1 d]
    (c.obj b).blocks 1 = some d ∧
    ∀ k d', ((c.run hn rest).step hn (.data a k d')).obj a = (c.run hn rest).obj a := by
  intro c
  have w := wf_run (hn := hn) wf_init pre
  have ow := own_run (hn := hn) own_init pre
  have w1 := wf_step w (.startRead a)
  have ow1 := own_step (hn := hn) ow (.startRead a)
  have e1 : ((Conn.init.run hn pre).find a).2 = a := by simp only [Conn.find, ha]
  have hb1 : ((Conn.init.run hn pre).step hn (.startRead a)).eps b = none := by
    show ((Conn.init.run hn pre).find a).1.eps b = none
    simp only [Conn.find, ha]
    rw [if_neg (Ne.symm hne)]
    exact hb
  have ha1 : ((Conn.init.run hn pre).step hn (.startRead a)).eps a = some a := by
    show ((Conn.init.run hn pre).find a).1.eps a = some a
    simp [Conn.find, ha]
  have ho1 : (((Conn.init.run hn pre).step hn (.startRead a)).obj a).addr = a := by
    simp [Conn.step, Conn.firstBlock, Conn.find, ha, Conn.upd, Ep.awaitBlock, Ep.new]
  obtain ⟨-, s2, -⟩ := started_read (hn := hn) w a
  obtain ⟨t1, t2, t3⟩ := started_read (hn := hn) w1 b
  have e2 : (((Conn.init.run hn pre).step hn (.startRead a)).find b).2 = b := by
    simp only [Conn.find, hb1]
  rw [e2] at t1 t3
  have ha2 : (((Conn.init.run hn pre).step hn (.startRead a)).step hn (.startRead b)).eps a = some a := by
    show (((Conn.init.run hn pre).step hn (.startRead a)).find b).1.eps a = some a
    rw [find_keeps (by rw [ha1]; simp)]
    exact ha1
  have hd : Direct (((Conn.init.run hn pre).step hn (.startRead a)).step hn (.startRead b)) a := by
    intro x hx
    rw [ha2] at hx
    cases hx
    show (if a = (((Conn.init.run hn pre).step hn (.startRead a)).find b).2 then _ else
      (((Conn.init.run hn pre).step hn (.startRead a)).find b).1.obj a : Ep).addr = a
    rw [e2, if_neg hne, find_obj (by rw [ha1]; simp)]
    exact ho1
  obtain ⟨l, np, hst, -, -⟩ := first_data (hn := hn) (b := a) (e := b) (wf_step w1 (.startRead b))
    (own_step ow1 (.startRead b)) hd (by rw [← hab]; exact t1) (by rw [t2, s2]; exact hfa) d
  refine ⟨hst t3, fun k d' => ?_⟩
  obtain ⟨l3, np3, w3⟩ := link_run (wf_step (wf_step w1 (.startRead b)) (.data a 1 d)) l np rest hq
  show ((c.run hn rest).step hn (.data a k d')).obj a = _
  have hc : c.run hn rest = ((((Conn.init.run hn pre).step hn (.startRead a)).step hn
    (.startRead b)).step hn (.data a 1 d)).run hn rest := rfl
  rw [hc, linked_data w3 l3 np3, linked_other l3 hne]

/-- A read that timed out spoils the next write by a client of the same host: its endpoint is still
registered for the host's first block, so the client's first block is refused with an error, and no
block of that client's reaches its own endpoint, whatever happens until another transfer with the
host begins here. -/
theorem C90_stale_fails (pre rest : List Op) (a b : Addr) (d : Bytes)
    (hab : b.host hn = a.host hn) (hne : b ≠ ((Conn.init.run hn pre).find a).2)
    (hba : b ≠ a) (hb : (Conn.init.run hn pre).eps b = none)
    (hfa : (Conn.init.run hn pre).fa (a.host hn) = none)
    (hq : ∀ o ∈ rest, o.quiet hn (a.host hn) = true) :
    let e := ((Conn.init.run hn pre).find a).2
    let c := (Conn.init.run hn pre).run hn
      [.startRead a, .request a, .giveUpBlock e 1, .lookup b, .awaitBlock b 1]
    let c' := c.step hn (.data b 1 d)
    (c.obj b).waitB 1 = true ∧ c'.out = c.out ++ [(b, .error)] ∧ c'.obj b = c.obj b ∧
    ∀ k d', ((c'.run hn rest).step hn (.data b k d')).obj b = (c'.run hn rest).obj b := by
  intro e c c'
  have w : Wf hn c := wf_run (wf_run wf_init pre) _
  have ow : Own c := own_run (own_run own_init pre) _
  obtain ⟨s1, s2, s3⟩ := started_read (hn := hn) (wf_run (hn := hn) wf_init pre) a
  have hb1 : ((Conn.init.run hn pre).step hn (.startRead a)).eps b = none := by
    show ((Conn.init.run hn pre).find a).1.eps b = none
    unfold Conn.find
    split
    · exact hb
    · exact (if_neg hba).trans hb
  have hc : c = (((((((Conn.init.run hn pre).step hn (.startRead a)).step hn (.request a)).step hn
    (.giveUpBlock e 1)).find b).1).upd b (Ep.awaitBlock 1)) := rfl
  have hepsb : c.eps b = some b := by
    rw [hc]
    show (((((Conn.init.run hn pre).step hn (.startRead a)).step hn (.request a)).step hn
      (.giveUpBlock e 1)).find b).1.eps b = _
    unfold Conn.find
    rw [show ((((Conn.init.run hn pre).step hn (.startRead a)).step hn (.request a)).step hn
      (.giveUpBlock e 1)).eps b = none from hb1]
    exact if_pos rfl
  have hfb : c.fb (b.host hn) = some e := by
    rw [hc, hab]
    show (((((Conn.init.run hn pre).step hn (.startRead a)).step hn (.request a)).step hn
      (.giveUpBlock e 1)).find b).1.fb _ = _
    rw [find_fb]
    exact s1
  have hfa' : c.fa (b.host hn) = none := by
    rw [hc, hab]
    show (((((Conn.init.run hn pre).step hn (.startRead a)).step hn (.request a)).step hn
      (.giveUpBlock e 1)).find b).1.fa _ = _
    rw [find_fa]
    show ((Conn.init.run hn pre).step hn (.startRead a)).fa _ = _
    rw [s2]
    exact hfa
  have hobjb : (c.obj b).addr = b ∧ (c.obj b).waitB 1 = true := by
    rw [hc]
    simp only [Conn.upd, if_true]
    unfold Conn.find
    rw [show ((((Conn.init.run hn pre).step hn (.startRead a)).step hn (.request a)).step hn
      (.giveUpBlock e 1)).eps b = none from hb1]
    simp [Ep.awaitBlock, Ep.new]
  have hwe : (c.obj e).waitB 1 = false := by
    have hown := ow.fb _ _ hfb
    rw [hc]
    show (if e = b then _ else (((((Conn.init.run hn pre).step hn (.startRead a)).step hn
      (.request a)).step hn (.giveUpBlock e 1)).find b).1.obj e : Ep).waitB 1 = false
    rw [if_neg (Ne.symm hne), find_obj]
    · simp [Conn.step, Conn.upd, Ep.dropBlock]
    · have := (own_step (hn := hn) (own_run (hn := hn) own_init pre) (.startRead a)).fb _ _ s1
      exact this
  have hd : Direct c b := by
    intro x hx
    rw [hepsb] at hx
    cases hx
    exact hobjb.1
  obtain ⟨l, np, -, hoth, herr⟩ := first_data (hn := hn) w ow hd hfb hfa' d
  refine ⟨hobjb.2, herr hwe, hoth hwe b (by rw [hepsb]; simp) hne, fun k d' => ?_⟩
  obtain ⟨l3, np3, w3⟩ := link_run (wf_step w (.data b 1 d)) l np rest (by rw [hab]; exact hq)
  rw [linked_data w3 l3 np3, linked_other l3 hne]

/-- A server that answered an earlier read from a port of its own (`b`) and answers the next one from
the address asked (`a`): the read keeps sending its acknowledgements to `b`, whatever happens until
another transfer with the host begins. -/
theorem C90_port_fails (pre rest : List Op) (a b e : Addr) (d : Bytes) (_ : b ≠ a) :
    let c := Conn.init.run hn pre
    c.eps a = some e → c.eps b = some e → (c.obj e).addr = b → c.fa (a.host hn) = none →
    (∀ o ∈ rest, o.quiet hn (a.host hn) = true) →
    let c' := ((c.step hn (.startRead a)).step hn (.data a 1 d)).run hn rest
    ∀ k, (c'.step hn (.send e (.ack k))).out = c'.out ++ [(b, .ack k)] := by
  intro c ha hb hobj hfa hq c' k
  have w : Wf hn c := wf_run wf_init pre
  have ow : Own c := own_run own_init pre
  have e1 : c.find a = (c, e) := by simp only [Conn.find, ha]
  have hh : b.host hn = a.host hn := by rw [← hobj, w.addr, w.eps _ _ ha]
  have l : Link e b c := ⟨hb, hobj, ow.eps _ _ ha⟩
  obtain ⟨s1, s2, s3⟩ := started_read (hn := hn) w a
  rw [e1] at s1 s3
  have l1 : Link e b (c.step hn (.startRead a)) := by
    have := link_upd (link_find l a) (c.find a).2 (Ep.awaitBlock 1) (fun _ => rfl)
    exact ⟨this.eps, this.addr, this.own⟩
  have ha1 : (c.step hn (.startRead a)).eps a = some e := by
    show (c.find a).1.eps a = some e
    rw [e1]; exact ha
  have e2 : (c.step hn (.startRead a)).find a = (c.step hn (.startRead a), e) := by
    simp only [Conn.find, ha1]
  have hstep : (c.step hn (.startRead a)).step hn (.data a 1 d) =
      (({ c.step hn (.startRead a) with
          fb := fun x => if x = a.host hn then none else (c.step hn (.startRead a)).fb x } :
        Conn).adopt e e).epData e 1 d := by
    show (c.step hn (.startRead a)).handleData hn a 1 d = _
    unfold Conn.handleData
    rw [e2]
    dsimp only
    rw [if_pos rfl, l1.addr, hh, s1]
  have l2 : Link e b ((c.step hn (.startRead a)).step hn (.data a 1 d)) := by
    rw [hstep]
    refine link_epData ⟨?_, ?_, ?_⟩ _ _ _
    · show (if b = ((c.step hn (.startRead a)).obj e).addr then some e else _) = some e
      rw [l1.addr, if_pos rfl]
    · show (if e = e then ({ (c.step hn (.startRead a)).obj e with
        addr := ((c.step hn (.startRead a)).obj e).addr } : Ep) else _).addr = b
      rw [if_pos rfl]
      exact l1.addr
    · show (if e = ((c.step hn (.startRead a)).obj e).addr then some e
        else (c.step hn (.startRead a)).eps e) ≠ none
      split
      · simp
      · exact l1.own
  have np : NoPend (b.host hn) ((c.step hn (.startRead a)).step hn (.data a 1 d)) := by
    rw [hstep, hh]
    constructor
    · rw [epData_fb]
      show (if a.host hn = a.host hn then none else _) = none
      rw [if_pos rfl]
    · rw [epData_fa]
      show (c.step hn (.startRead a)).fa _ = none
      rw [s2]; exact hfa
  obtain ⟨l3, -, -⟩ := link_run (wf_step (wf_step w (.startRead a)) (.data a 1 d)) l2 np rest
    (by rw [hh]; exact hq)
  show _ ++ _ = _
  rw [l3.addr]

/-- The error for an unknown opcode goes to the connection's remote address, whoever sent it. -/
theorem C90_unknown_fails (c : Conn) (sender remote : Addr) :
    (c.step hn (.unknown sender remote)).out = c.out ++ [(remote, .error)] :=
  find_out (c := c.send remote .error) remote

/-- A server at port 69 of host "h" answering from port 1000, and another host "g". -/
abbrev h69 : Addr := ⟨"h", 69⟩
abbrev h1000 : Addr := ⟨"h", 1000⟩
abbrev h70 : Addr := ⟨"h", 70⟩
abbrev g69 : Addr := ⟨"g", 69⟩

/-- Cases: two reads from different hosts at once, with a stray block and the answer from a new port;
two reads from one host; a second read answered from the address asked. -/
theorem C90_cases :
    (let c := Conn.init.run id [.startRead h69, .startRead g69, .data g69 1 [9], .data h1000 1 [7],
        .awaitBlock h69 2, .data h70 2 [1], .data h1000 2 [8], .send h69 (.ack 2)]
     (c.obj h69).blocks 1 = some [7] ∧ (c.obj h69).blocks 2 = some [8] ∧
     (c.obj g69).blocks 1 = some [9] ∧ c.out = [(h70, .error), (h1000, .ack 2)]) ∧
    (let c := Conn.init.run id [.startRead h69, .startRead h70, .data h69 1 [7], .data h70 1 [8]]
     (c.obj h69).blocks 1 = none ∧ (c.obj h70).blocks 1 = some [7] ∧ c.out = [(h69, .error)]) ∧
    (let c := Conn.init.run id [.startRead h69, .data h1000 1 [7], .take h69 1]
     c.eps h69 = some h69 ∧ c.eps h1000 = some h69 ∧ (c.obj h69).addr = h1000 ∧ c.fa "h" = none ∧
     ((((c.step id (.startRead h69)).step id (.data h69 1 [5])).step id
       (.send h69 (.ack 1))).out = [(h1000, .ack 1)])) ∧
    (let c := Conn.init.run id [.startWrite h69, .ack h1000 0, .awaitAck h69 1, .ack h1000 1]
     (c.obj h69).gotA 1 = true ∧ (c.obj h69).addr = h1000) := by
  decide

end Verif.Tftp.Endpoints
