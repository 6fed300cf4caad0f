import Verif.Serial.Struct
import Verif.Net.Restart

/-!
C80: struct telemetry over UDP (`net/arbiter/struct/__init__.py`), on top of the framing and parsing of C26 and
C27: which samples a receiver sees of what arrives, who it takes them from, what ends it, where the sender's
datagrams go and what the MTU probe sends.

The sender's struct, framer and operations and the receiver's struct are those of `Serial/Struct`. What arrives
is a list of datagrams with addresses. The socket is the one of `Net/Restart`; a run of the sender happens
between two restarts.
-/
namespace Verif.Telemetry
open Verif Verif.Wire Verif.Serial

abbrev Addr := Restart.Addr
abbrev Sample := List (Kind × Val)

/-- The receiving side of a `UdpStructTransceiver`, struct/__init__.py 93–104. -/
structure Rx where
  heap : Heap
  /-- `struct_rx` -/
  rx : Option Nat
  enabled : Bool
  /-- what escaped the reader, which is then over -/
  dead : Option PyErr
  /-- the calls of `handle_update`: the time, what the struct holds, the address -/
  seen : List (Int × Sample × Addr)

/-- A new connection. -/
def Rx.new (h : Heap) : Rx := ⟨h, none, true, none, []⟩

/-- `assign_rx`, struct/__init__.py 150–159, for an instance of the right kind. -/
def Rx.assign (r : Rx) (j : Nat) : Rx × Option PyErr :=
  match r.rx with
  | some _ => (r, some .assertion)
  | none => ({ r with rx := some j }, none)

/-- `process_datagram`, struct/__init__.py 192–204, in a round of the reader, net/udp/connection.py 195–212:
always true, so only an exception ends it. -/
def Rx.recv (r : Rx) (d : Bytes) (a : Addr) : Rx :=
  if r.enabled = true ∧ r.dead = none then
    match r.rx with
    | none => r
    | some j =>
      match r.heap.processDatagram j d with
      | (h, obs, .ok _) => { r with heap := h, seen := r.seen ++ obs.map (fun o => (o.1, o.2, a)) }
      | (h, obs, .error e) =>
        { r with heap := h, seen := r.seen ++ obs.map (fun o => (o.1, o.2, a)), dead := some e }
  else r

def Rx.run (r : Rx) (ds : List (Bytes × Addr)) : Rx := ds.foldl (fun r d => r.recv d.1 d.2) r

/-- `capture`, struct/__init__.py 175–185, sends its frames without an address. -/
def transmit (u : Restart.Conn) (ds : List Bytes) : Restart.Conn := ds.foldl (fun u d => (u.sendto d none).1) u

/-- `UDP_DEFAULT_MTU` and `UDP_HEADER_SIZE`, net/mtu.py 33–36. -/
def defaultMtu : Int := 1500 - (60 + 8)
def headerSize : Int := 60 + 8

/-- The loop of `get_payload`, struct/__init__.py 120–127, for at most so many rounds: samples are captured, but
not polled. -/
def probeLoop (h : Heap) : Nat → Framer → Framer × Except PyErr (Option Bytes)
  | 0, f => (f, .ok none)
  | n + 1, f =>
    match f.capture h true false with
    | (f, .ok none) => probeLoop h n f
    | r => r

/-- `assign_tx`, struct/__init__.py 106–134, with the MTU the system gives: the framer, and the probe, which
`host_discover_mtu` (net/mtu.py 94–111) sends to the remote address from a socket of its own. -/
def assignTx (h : Heap) (i : Nat) (mtu : Int) : Except PyErr (Framer × Bytes) :=
  match Framer.new h i defaultMtu with
  | (_, .error e) => .error e
  | (f, .ok _) =>
    match f.setMtu h defaultMtu 0 with
    | (_, .error e) => .error e
    | (f, .ok _) =>
      match probeLoop h f.length f with
      | (_, .error e) => .error e
      | (_, .ok none) => .error .runtime
      | (f, .ok (some p)) =>
        match f.setMtu h mtu headerSize with
        | (_, .error e) => .error e
        | (f, .ok _) => .ok (f, p)

theorem run_cons (r : Rx) (d : Bytes × Addr) (ds : List (Bytes × Addr)) : r.run (d :: ds) = (r.recv d.1 d.2).run ds := rfl

/-! ### What arrives -/

theorem forall2_groups {α β : Type} {R : α → β → Prop} (gs : List (List α)) (m : List β)
    (h : List.Forall₂ R gs.flatten m) : ∃ ms, List.Forall₂ (List.Forall₂ R) gs ms ∧ m = ms.flatten := by
  induction gs generalizing m with
  | nil => cases h; exact ⟨[], .nil, rfl⟩
  | cons g gs ih =>
    rw [List.flatten_cons] at h
    obtain ⟨m1, m2, rfl, h1, h2⟩ := forall2_split _ _ _ h
    obtain ⟨ms, i1, rfl⟩ := ih m2 h2
    exact ⟨m1 :: ms, .cons h1 i1, rfl⟩

theorem forall2_get {α β : Type} {R : α → β → Prop} {l : List α} {m : List β} (h : List.Forall₂ R l m) (k : Nat)
    (hk : k < l.length) : ∃ x y, l[k]? = some x ∧ m[k]? = some y ∧ R x y := by
  induction h generalizing k with
  | nil => simp at hk
  | @cons x y l m h1 h2 ih =>
    cases k with
    | zero => exact ⟨x, y, rfl, rfl, h1⟩
    | succ k => exact ih k (by simpa using hk)

/-- The sender's datagrams are groups of whole samples. -/
theorem tx_groups (h0 : Heap) (hk : HeapOk h0) (i ts seq : Nat) (a : Arr) (hs : IsStruct h0 i ts seq a)
    (f0 f : Framer) (mtu overhead : Int) (n : Nat) (hinst : f0.inst = i)
    (hset : f0.setMtu h0 mtu overhead = (f, .ok n)) (ops : List TxOp) (hok : TxOk h0 ops) :
    ∃ (groups : List (List Bytes)) (css : List (List Sample)) (pend : List Sample),
      (txRun ts seq (h0, f) ops).2 = groups.map List.flatten ∧ List.Forall₂ (List.Forall₂ (Enc a)) groups css ∧
      css.flatten ++ pend = txLog ts seq i h0 ops ∧ (∀ g ∈ groups, g ≠ []) ∧
      (∀ g ∈ groups, ∀ x ∈ g, x.length = a.size) ∧ 0 < a.size := by
  subst hinst
  obtain ⟨L, l1, l2, l3, l4, l5, l6⟩ := setMtu_spec h0 f0 mtu overhead n (by rw [hset])
  rw [hset] at l6
  dsimp only at l6
  subst l6
  have hLsz : L = a.size := by
    have hw : h0.chain f0.inst = .ok [f0.inst] := by
      refine (chain_iff h0 _ _).mpr ⟨rfl, hs.next, ?_⟩
      by_contra hlt
      have hlt' : h0.nn ≤ f0.inst := by simp at hlt; omega
      exact (hk.unused _ hlt').2 a hs.body
    simp only [Heap.length, hw, Except.map, List.map_cons, List.map_nil, List.sum_cons, List.sum_nil, hs.body,
      Body.size] at l1
    injection l1 with l1
    omega
  subst hLsz
  obtain ⟨t1, t2, t3⟩ := txHist_spec h0 f0.inst ts seq a hs ops h0 ⟨hk, rfl, fun _ => rfl⟩ hok
  obtain ⟨groups, pend, g1, g2, g3, g4, g5, g6, g7⟩ := run_spec a.size l2 (txHist ts seq h0 ops)
    ⟨f0.inst, n, 0, []⟩ [] t1 ⟨rfl, rfl, l3⟩ (fun b hb => by cases hb)
  rw [List.nil_append] at g5
  dsimp only at g5
  rw [← g5] at t2
  obtain ⟨m1, m2, e1, e2, e3⟩ := forall2_split _ _ _ t2
  obtain ⟨css, c1, rfl⟩ := forall2_groups groups m1 e2
  obtain ⟨x1, x2⟩ := txRun_eq ts seq ops h0 ⟨f0.inst, n, 0, []⟩
  exact ⟨groups, css, m2, x2.trans g1, c1, e1.symm, fun g hg => (g6 g hg).1,
    fun g hg x hx => g7 x (List.mem_append_left _ (List.mem_flatten.mpr ⟨g, hg, hx⟩)), l2⟩

/-- One datagram of whole samples. -/
theorem recv_group (a b : Arr) (j : Nat) (hfmt : b.fmt = a.fmt) (hord : b.order = a.order) (hco : Compat a b)
    (g : List Bytes) (cs : List Sample) (he : List.Forall₂ (Enc a) g cs) (hlen : ∀ x ∈ g, x.length = b.size)
    (hpos : 0 < b.size) (r : Rx) (hk : HeapOk r.heap) (hj : (r.heap.node j).body = .array b) (hr : r.rx = some j)
    (hen : r.enabled = true) (hd : r.dead = none) (s : Addr) :
    ∃ (h' : Heap) (obs : List (Int × Sample)), r.recv g.flatten s = { r with heap := h', seen := r.seen ++ obs.map (fun o => (o.1, o.2, s)) } ∧
      obs.map Prod.snd = cs ∧ (∀ o ∈ obs, o.2.head? = some (.int .uint64, .int o.1)) ∧ HeapOk h' ∧
      h'.node = r.heap.node := by
  obtain ⟨h', obs, r1, r2, r3, r4, r5⟩ := processLoop_spec j a b hfmt hord hco g cs he hlen r.heap hk hj
  refine ⟨h', obs, ?_, r2, r3, r4, r5⟩
  have hgl := flatten_length b.size g hlen
  have hz : ¬ b.size = 0 := by omega
  unfold Rx.recv
  simp only [hen, hd, and_self, if_true, hr, Heap.processDatagram, hj, hz, if_false, hgl, Nat.mul_mod_left,
    Nat.mul_div_cancel _ hpos, r1]

/-- C80. The sender's datagrams split its samples into runs, each in one datagram. Whatever arrives of them —
any of them, in any order, however often, from whatever address — a receiver whose struct has the same layout
sees exactly the samples of the datagrams that arrive, in the order of arrival, whole, each with its own time
stamp and the address its datagram came from; the reader goes on. -/
theorem C80_lossy (h0 : Heap) (hk : HeapOk h0) (i ts seq : Nat) (a : Arr) (hs : IsStruct h0 i ts seq a)
    (f0 f : Framer) (mtu overhead : Int) (n : Nat) (hinst : f0.inst = i)
    (hset : f0.setMtu h0 mtu overhead = (f, .ok n)) (ops : List TxOp) (hok : TxOk h0 ops)
    (hr : Heap) (hrk : HeapOk hr) (j : Nat) (b : Arr) (hj : (hr.node j).body = .array b)
    (hfmt : b.fmt = a.fmt) (hord : b.order = a.order) (hco : Compat a b) :
    ∃ (runs : List (List Sample)) (pend : List Sample),
      runs.length = (txRun ts seq (h0, f) ops).2.length ∧ (∀ c ∈ runs, c ≠ []) ∧
      runs.flatten ++ pend = txLog ts seq i h0 ops ∧
      ∀ arrivals : List (Nat × Addr), (∀ x ∈ arrivals, x.1 < (txRun ts seq (h0, f) ops).2.length) →
        (((Rx.new hr).assign j).1.run
            (arrivals.map (fun x => (((txRun ts seq (h0, f) ops).2[x.1]?).getD [], x.2)))).seen.map (fun o => (o.2.1, o.2.2))
          = arrivals.flatMap (fun x => ((runs[x.1]?).getD []).map (fun s => (s, x.2))) ∧
        (∀ o ∈ (((Rx.new hr).assign j).1.run
            (arrivals.map (fun x => (((txRun ts seq (h0, f) ops).2[x.1]?).getD [], x.2)))).seen,
          o.2.1.head? = some (.int .uint64, .int o.1)) ∧
        (((Rx.new hr).assign j).1.run
            (arrivals.map (fun x => (((txRun ts seq (h0, f) ops).2[x.1]?).getD [], x.2)))).enabled = true ∧
        (((Rx.new hr).assign j).1.run
            (arrivals.map (fun x => (((txRun ts seq (h0, f) ops).2[x.1]?).getD [], x.2)))).dead = none := by
  obtain ⟨groups, css, pend, g1, g2, g3, g4, g5, g6⟩ := tx_groups h0 hk i ts seq a hs f0 f mtu overhead n hinst hset ops hok
  have hsz : b.size = a.size := by rw [(hrk.arrays j b hj).size, (hk.arrays i a hs.body).size, hfmt]
  have hlen := g2.length_eq
  refine ⟨css, pend, by rw [g1, List.length_map, hlen], ?_, g3, ?_⟩
  · intro c hc
    obtain ⟨k, hk', e⟩ := List.getElem_of_mem hc
    obtain ⟨x, y, e1, e2, e3⟩ := forall2_get g2 k (by omega)
    have : y = c := by rw [List.getElem?_eq_getElem hk', e] at e2; exact (Option.some.inj e2).symm
    subst this
    have hx := g4 x (List.mem_of_getElem? e1)
    intro hy
    subst hy
    cases e3
    exact hx rfl
  · intro arrivals harr
    rw [g1] at harr ⊢
    rw [List.length_map] at harr
    have gen : ∀ (arrivals : List (Nat × Addr)) (r : Rx), (∀ x ∈ arrivals, x.1 < groups.length) → HeapOk r.heap →
        (r.heap.node j).body = .array b → r.rx = some j → r.enabled = true → r.dead = none →
        (∀ o ∈ r.seen, o.2.1.head? = some (.int .uint64, .int o.1)) →
        (r.run (arrivals.map (fun x => (((groups.map List.flatten)[x.1]?).getD [], x.2)))).seen.map (fun o => (o.2.1, o.2.2))
          = r.seen.map (fun o => (o.2.1, o.2.2)) ++ arrivals.flatMap (fun x => ((css[x.1]?).getD []).map (fun s => (s, x.2))) ∧
        (∀ o ∈ (r.run (arrivals.map (fun x => (((groups.map List.flatten)[x.1]?).getD [], x.2)))).seen,
          o.2.1.head? = some (.int .uint64, .int o.1)) ∧
        (r.run (arrivals.map (fun x => (((groups.map List.flatten)[x.1]?).getD [], x.2)))).enabled = true ∧
        (r.run (arrivals.map (fun x => (((groups.map List.flatten)[x.1]?).getD [], x.2)))).dead = none := by
      intro arrivals
      induction arrivals with
      | nil => intro r _ _ _ _ he hd ht; exact ⟨by simp [Rx.run], ht, he, hd⟩
      | cons x xs ih =>
        intro r hx hkr hjr hrx he hd ht
        obtain ⟨g, cs, e1, e2, e3⟩ := forall2_get g2 x.1 (hx x List.mem_cons_self)
        obtain ⟨h', obs, q1, q2, q3, q4, q5⟩ := recv_group a b j hfmt hord hco g cs e3
          (fun y hy => by rw [hsz]; exact g5 g (List.mem_of_getElem? e1) y hy) (by omega) r hkr hjr hrx he hd x.2
        have hrecv : r.recv (((groups.map List.flatten)[x.1]?).getD []) x.2
            = { r with heap := h', seen := r.seen ++ obs.map (fun o => (o.1, o.2, x.2)) } := by
          rw [List.getElem?_map, e1]; exact q1
        obtain ⟨i1, i2, i3, i4⟩ := ih { r with heap := h', seen := r.seen ++ obs.map (fun o => (o.1, o.2, x.2)) }
          (fun y hy => hx y (List.mem_cons_of_mem _ hy)) q4 (by rw [q5]; exact hjr) hrx he hd (by
            intro o ho
            rcases List.mem_append.mp ho with ho | ho
            · exact ht o ho
            · obtain ⟨o', ho', rfl⟩ := List.mem_map.mp ho
              exact q3 o' ho')
        rw [List.map_cons, run_cons]
        dsimp only
        rw [hrecv]
        refine ⟨?_, i2, i3, i4⟩
        rw [i1, List.flatMap_cons, e2]
        simp only [List.map_append, List.map_map, List.append_assoc, Option.getD_some, ← q2]
        rfl
    exact gen arrivals _ harr hrk hj rfl rfl rfl (fun o ho => by cases ho)

/-- C80. The sequence numbers of two samples differ by their distance modulo 2^16: they are the same exactly if
the distance is a multiple of 65536, so that many lost samples cannot be told from none. -/
theorem C80_sequence (h0 : Heap) (i ts seq : Nat) (a : Arr) (hs : IsStruct h0 i ts seq a) (ops : List TxOp)
    (hset : ∀ r v, TxOp.set r v ∈ ops → r ≠ seq) (v0 : Int) (hv : (h0.prim seq).val = .int v0)
    (p q : Nat) (hpq : p ≤ q) (x y : Sample) (hx : (txLog ts seq i h0 ops)[p]? = some x)
    (hy : (txLog ts seq i h0 ops)[q]? = some y) : x[1]? = y[1]? ↔ 65536 ∣ q - p := by
  rw [C27_sequence h0 i ts seq a hs ops hset v0 h0 rfl (fun _ => rfl) hv p x hx,
    C27_sequence h0 i ts seq a hs ops hset v0 h0 rfl (fun _ => rfl) hv q y hy]
  simp only [Option.some.injEq, Prod.mk.injEq, Val.int.injEq, true_and]
  omega

/-! ### What ends it, and what it takes from anyone -/

theorem dead_run (e : PyErr) (ds : List (Bytes × Addr)) (r : Rx) (h : r.dead = some e) : r.run ds = r := by
  induction ds with
  | nil => rfl
  | cons d ds ih =>
    rw [run_cons, show r.recv d.1 d.2 = r by unfold Rx.recv; rw [if_neg (by simp [h])]]
    exact ih

/-- C80 does not hold after a datagram of another length: from anyone, it ends the reader; no sample that
arrives later is seen, while the connection stays enabled. -/
theorem C80_length_fails (r : Rx) (j : Nat) (b : Arr) (hj : (r.heap.node j).body = .array b) (hp : 0 < b.size)
    (hr : r.rx = some j) (hen : r.enabled = true) (hd : r.dead = none) (d : Bytes) (hlen : ¬ b.size ∣ d.length)
    (s : Addr) (ds : List (Bytes × Addr)) :
    (r.run ((d, s) :: ds)).seen = r.seen ∧ (r.run ((d, s) :: ds)).enabled = true ∧
    (r.run ((d, s) :: ds)).dead = some .assertion ∧ (r.run ((d, s) :: ds)).heap = r.heap := by
  have h1 : r.recv d s = { r with dead := some .assertion } := by
    unfold Rx.recv
    rw [if_pos ⟨hen, hd⟩, hr]
    dsimp only
    rw [C27_reject r.heap j b hj hp d hlen]
    simp
  rw [run_cons, h1, dead_run .assertion ds _ rfl]
  exact ⟨rfl, hen, rfl, rfl⟩

/-- C80 does not hold of what is accepted: any other bytes of a fitting length, from anyone, are as many samples
as they have room for. -/
theorem C80_stray_fails (r : Rx) (hk : HeapOk r.heap) (j : Nat) (b : Arr) (hj : (r.heap.node j).body = .array b)
    (hp : 8 ≤ b.size) (ho : b.order ≠ .native) (hr : r.rx = some j) (hen : r.enabled = true) (hd : r.dead = none)
    (d : Bytes) (hlen : b.size ∣ d.length) (s : Addr) :
    ∃ obs : List (Int × Sample), (r.recv d s).seen = r.seen ++ obs.map (fun o => (o.1, o.2, s)) ∧
      obs.length * b.size = d.length ∧ (r.recv d s).dead = none ∧ (r.recv d s).enabled = true := by
  obtain ⟨h', obs, h1, h2⟩ := C27_accept r.heap hk j b hj hp ho d hlen
  refine ⟨obs, ?_⟩
  unfold Rx.recv
  rw [if_pos ⟨hen, hd⟩, hr]
  dsimp only
  rw [h1]
  exact ⟨rfl, h2, hd, hen⟩

/-- C80. Without a receive struct everything is ignored; it can be assigned once. -/
theorem C80_assign (r : Rx) (j : Nat) (hr : r.rx = none) (ds : List (Bytes × Addr)) :
    r.run ds = r ∧ (r.assign j).2 = none ∧ ∀ k, (r.assign j).1.assign k = ((r.assign j).1, some .assertion) := by
  refine ⟨?_, by simp [Rx.assign, hr], fun k => by simp [Rx.assign, hr]⟩
  induction ds with
  | nil => rfl
  | cons d ds ih =>
    rw [run_cons, show r.recv d.1 d.2 = r by unfold Rx.recv; rw [hr]; simp]
    exact ih

/-! ### Where it goes -/

theorem sendto_connected (u : Restart.Conn) (p : Addr) (hp : u.cur.peer = some p) (hu : u.cur.phase = .up) (d : Bytes) :
    (u.sendto d none).1 = { u with tx := u.tx + d.length, sent := u.sent ++ [(d, p)] } := by
  simp [Restart.Conn.sendto, Restart.Tr.dest, hp, hu]

/-- C80. A connected socket sends every frame to its peer, in order. -/
theorem C80_connected (u : Restart.Conn) (p : Addr) (hp : u.cur.peer = some p) (hu : u.cur.phase = .up) (ds : List Bytes) :
    (transmit u ds).sent = u.sent ++ ds.map (fun d => (d, p)) ∧ (transmit u ds).tx = u.tx + ds.flatten.length := by
  induction ds generalizing u with
  | nil => exact ⟨by simp [transmit], rfl⟩
  | cons d ds ih =>
    have h := ih (u.sendto d none).1 (by rw [sendto_connected u p hp hu]; exact hp) (by rw [sendto_connected u p hp hu]; exact hu)
    rw [sendto_connected u p hp hu] at h
    have e : transmit u (d :: ds) = transmit { u with tx := u.tx + d.length, sent := u.sent ++ [(d, p)] } ds := by
      rw [← sendto_connected u p hp hu]; rfl
    rw [e]
    refine ⟨by rw [h.1]; simp, by rw [h.2]; simp [Nat.add_assoc]⟩

/-- C80 does not hold of a socket that is not connected: no frame leaves it, although its connection has a remote
address, for which `assign_tx` could probe; the metrics count them all. -/
theorem C80_unconnected_fails (l : Option Addr) (r free : Addr) (ds : List Bytes) :
    ∃ u, Restart.createUdp false l (some r) free = .ok u ∧ u.remote = some r ∧
      (transmit u ds).sent = [] ∧ (transmit u ds).tx = ds.flatten.length := by
  have gen : ∀ (ds : List Bytes) (u : Restart.Conn), u.cur.peer = none →
      (transmit u ds).sent = u.sent ∧ (transmit u ds).tx = u.tx + ds.flatten.length := by
    intro ds
    induction ds with
    | nil => intro u _; exact ⟨rfl, rfl⟩
    | cons d ds ih =>
      intro u hu
      have e : (u.sendto d none).1 = { u with tx := u.tx + d.length } := by
        simp [Restart.Conn.sendto, Restart.Tr.dest, hu]
      have h := ih (u.sendto d none).1 (by rw [e]; exact hu)
      rw [e] at h
      have e' : transmit u (d :: ds) = transmit { u with tx := u.tx + d.length } ds := by rw [← e]; rfl
      rw [e']
      exact ⟨h.1, by rw [h.2]; simp [Nat.add_assoc]⟩
  refine ⟨_, rfl, rfl, (gen ds _ ?_).1, (gen ds _ ?_).2.trans (Nat.zero_add _)⟩ <;> rfl

/-! ### The probe -/

theorem struct_length (h : Heap) (hk : HeapOk h) (i ts seq : Nat) (a : Arr) (hs : IsStruct h i ts seq a) :
    h.length i = .ok a.size := by
  have hw : h.chain i = .ok [i] := by
    refine (chain_iff h _ _).mpr ⟨rfl, hs.next, ?_⟩
    by_contra hlt
    have hlt' : h.nn ≤ i := by simp at hlt; omega
    exact (hk.unused _ hlt').2 a hs.body
  simp only [Heap.length, hw, Except.map, List.map_cons, List.map_nil, List.sum_cons, List.sum_nil, hs.body, Body.size]
  rfl

theorem probe_spec (h : Heap) (i : Nat) (b : Bytes) (hb : h.bytes i = .ok b) (hne : b ≠ []) (n : Nat) (f : Framer)
    (hi : f.inst = i) (k : Nat) (hraw : f.raw = (List.replicate k b).flatten) (hel : f.elements = k)
    (hn : k + (n + 1) = f.length) :
    probeLoop h (n + 1) f = (f.reset, .ok (some (List.replicate f.length b).flatten)) := by
  induction n generalizing f k with
  | zero =>
    have hcap : f.capture h true false = (f.reset, .ok (some (List.replicate f.length b).flatten)) := by
      have e : (List.replicate k b).flatten ++ b = (List.replicate f.length b).flatten := by
        rw [← hn, List.replicate_succ']; simp
      have hne' : (List.replicate f.length b).flatten ≠ [] := by
        rw [← e]; intro hc; exact hne (List.append_eq_nil_iff.mp hc).2
      unfold Framer.capture
      simp only [if_true, hi, hb, hraw, hel, e, Bool.false_eq_true, false_or]
      rw [if_pos ⟨hne', hn⟩]
      simp [Framer.reset, hi]
    unfold probeLoop
    rw [hcap]
  | succ n ih =>
    have hcap : f.capture h true false = ({ f with raw := f.raw ++ b, elements := f.elements + 1 }, .ok none) := by
      unfold Framer.capture
      simp only [if_true, hi, hb, Bool.false_eq_true, false_or]
      rw [if_neg (by rw [hel]; omega)]
    unfold probeLoop
    rw [hcap]
    dsimp only
    have := ih { f with raw := f.raw ++ b, elements := f.elements + 1 } hi (k + 1)
      (by rw [hraw, List.replicate_succ']; simp) (by rw [hel]) (by show k + 1 + (n + 1) = f.length; omega)
    rw [this]
    rfl

theorem setMtu_ok (h : Heap) (f : Framer) (mtu ov : Int) (L : Nat) (hl : h.length f.inst = .ok L) (hL : 0 < L)
    (hm : (L : Int) ≤ mtu - ov) :
    f.setMtu h mtu ov = (⟨f.inst, (Int.fdiv (mtu - ov) L).toNat, 0, []⟩, .ok (Int.fdiv (mtu - ov) L).toNat) := by
  have h1 : 0 < Int.fdiv (mtu - ov) L := by
    have h2 := Int.lt_fdiv_add_one_mul_self (mtu - ov) (show (0 : Int) < L by omega)
    by_cases h : 0 < Int.fdiv (mtu - ov) L
    · exact h
    · exfalso
      have h3 : (Int.fdiv (mtu - ov) L + 1) * L ≤ 1 * L := Int.mul_le_mul_of_nonneg_right (by omega) (by omega)
      omega
  unfold Framer.setMtu
  rw [hl]
  simp only [hL, h1, if_true]
  rfl

/-- C80 does not hold of the probe: assigning a struct to send sends as many copies of it as fit the default MTU.
A receiver that takes datagrams from any port sees each as a sample: all the same, none of them captured by the
sender. The framer is then as new. -/
theorem C80_probe_fails (h : Heap) (hk : HeapOk h) (i ts seq : Nat) (a : Arr) (hs : IsStruct h i ts seq a)
    (hsize : a.size ≤ 1432) (mtu : Int) (hmtu : (a.size : Int) ≤ mtu - 68)
    (r : Rx) (hrk : HeapOk r.heap) (j : Nat) (b : Arr) (hj : (r.heap.node j).body = .array b)
    (hfmt : b.fmt = a.fmt) (hord : b.order = a.order) (hco : Compat a b) (hr : r.rx = some j)
    (hen : r.enabled = true) (hd : r.dead = none) (s : Addr) :
    ∃ f p t, assignTx h i mtu = .ok (f, p) ∧ f.raw = [] ∧ f.elements = 0 ∧ f.inst = i ∧
      (∃ f0 n, f0.inst = i ∧ Framer.setMtu h f0 mtu 68 = (f, .ok n)) ∧
      (r.recv p s).seen = r.seen ++ List.replicate (1432 / a.size) (t, h.observe i, s) ∧ 1 ≤ 1432 / a.size := by
  obtain ⟨bs, hb, hbl, henc⟩ := enc_of_same h h i ts seq a hs ⟨hk, rfl, fun _ => rfl⟩
  have hlen := struct_length h hk i ts seq a hs
  have hpos : 0 < a.size := by
    obtain ⟨more, e, -, -⟩ := hs.prims
    rcases Nat.eq_zero_or_pos a.size with h0 | h0
    · exfalso
      have ha := hk.arrays i a hs.body
      have hf := fmt_cells h a ha
      rw [cells, e] at hf
      have hz := ha.size
      rw [← hf, h0] at hz
      simp [hs.kts, Kind.size, IntKind.size] at hz
      try omega
    · exact h0
  have hfd : (Int.fdiv (1432 : Int) a.size).toNat = 1432 / a.size := by
    rw [Int.fdiv_eq_ediv_of_nonneg _ (by omega)]
    exact congrArg Int.toNat (Int.natCast_ediv 1432 a.size).symm
  have hn1 : 1 ≤ 1432 / a.size := (Nat.le_div_iff_mul_le hpos).mpr (by omega)
  have hsz : b.size = a.size := by rw [(hrk.arrays j b hj).size, (hk.arrays i a hs.body).size, hfmt]
  -- the framer
  have s1 : Framer.new h i defaultMtu = (⟨i, 1432 / a.size, 0, []⟩, .ok (1432 / a.size)) := by
    have := setMtu_ok h ⟨i, 0, 0, []⟩ defaultMtu 0 a.size hlen hpos (by simp [defaultMtu]; omega)
    rw [show defaultMtu - 0 = 1432 from rfl, hfd] at this
    exact this
  have s2 : Framer.setMtu h ⟨i, 1432 / a.size, 0, []⟩ defaultMtu 0 = (⟨i, 1432 / a.size, 0, []⟩, .ok (1432 / a.size)) := by
    have := setMtu_ok h ⟨i, 1432 / a.size, 0, []⟩ defaultMtu 0 a.size hlen hpos (by simp [defaultMtu]; omega)
    rw [show defaultMtu - 0 = 1432 from rfl, hfd] at this
    exact this
  have s3 : probeLoop h (1432 / a.size) ⟨i, 1432 / a.size, 0, []⟩
      = (⟨i, 1432 / a.size, 0, []⟩, .ok (some (List.replicate (1432 / a.size) bs).flatten)) := by
    obtain ⟨m, hm⟩ : ∃ m, 1432 / a.size = m + 1 := ⟨1432 / a.size - 1, by omega⟩
    rw [hm]
    exact probe_spec h i bs hb (by intro hc; rw [hc] at hbl; simp at hbl; omega) m ⟨i, m + 1, 0, []⟩ rfl 0 rfl rfl (by simp)
  have s4 := setMtu_ok h ⟨i, 1432 / a.size, 0, []⟩ mtu headerSize a.size hlen hpos (by simp [headerSize]; omega)
  -- the receiver
  have hF : ∀ n, List.Forall₂ (Enc a) (List.replicate n bs) (List.replicate n (cells h a)) := by
    intro n
    induction n with
    | zero => exact .nil
    | succ n ih => rw [List.replicate_succ, List.replicate_succ]; exact .cons henc ih
  obtain ⟨h', obs, q1, q2, q3, -, -⟩ := recv_group a b j hfmt hord hco _ _ (hF (1432 / a.size))
    (fun x hx => by rw [List.eq_of_mem_replicate hx, hsz]; exact hbl) (by omega) r hrk hj hr hen hd s
  obtain ⟨t, tl, ht⟩ := henc.time
  have hobs : h.observe i = cells h a := by simp only [Heap.observe, hs.body]
  refine ⟨_, (List.replicate (1432 / a.size) bs).flatten, t, ?_, rfl, rfl, rfl, ⟨⟨i, 1432 / a.size, 0, []⟩, _, rfl, s4⟩, ?_, hn1⟩
  · unfold assignTx
    rw [s1]
    dsimp only
    rw [s2]
    dsimp only
    rw [s3]
    dsimp only
    rw [s4]
  · rw [q1, hobs]
    dsimp only
    congr 1
    have hl : obs.length = 1432 / a.size := by
      have := congrArg List.length q2
      simpa using this
    rw [← hl]
    have : ∀ o ∈ obs, o = (t, cells h a) := by
      intro o ho
      have h1 : o.2 ∈ obs.map Prod.snd := List.mem_map_of_mem ho
      rw [q2] at h1
      have h2 := List.eq_of_mem_replicate h1
      have h3 := q3 o ho
      rw [h2, ht] at h3
      simp only [List.head?_cons, Option.some.injEq, Prod.mk.injEq, Val.int.injEq, true_and] at h3
      exact Prod.ext h3.symm h2
    clear q1 q2 q3 hl
    induction obs with
    | nil => rfl
    | cons o obs ih =>
      rw [List.map_cons, ih (fun x hx => this x (List.mem_cons_of_mem _ hx)), this o List.mem_cons_self]
      rfl

/-! ### Cases -/

/-- Three samples in two datagrams, arriving out of order and twice, then a stray byte; the probe. -/
theorem C80_cases :
    let A : Addr := ("10.0.0.1", 5)
    let d1 : Bytes := [0, 0, 0, 0, 0, 0, 0, 5, 0, 1, 0, 0, 0, 0, 0, 0, 0, 0, 6, 0, 2, 9]
    let d2 : Bytes := [0, 0, 0, 0, 0, 0, 0, 7, 0, 3, 9]
    let r := ((Rx.new structHeap).assign 0).1
    let r' := r.run [(d2, A), (d1, A), (d2, A), ([1], A), (d1, A)]
    r'.seen.map (fun o => o.1) = [7, 5, 6, 7] ∧ r'.dead = some .assertion ∧ r'.enabled = true ∧
    (assignTx structHeap 0 1500).map (fun x => (x.1.length, x.2.length)) = .ok (130, 130 * 11) := by
  decide +kernel

end Verif.Telemetry
