import Verif.Message.Framing
import Verif.Net.Restart

/-!
C79: size-prefixed messages over UDP (`net/stream/__init__.py`, `net/stream/base.py`, `net/stream/string.py`
and the reader in `net/udp/connection.py`).

A connection has one `MessageProcessor` for everything it receives, whoever sent it. The handler
(`process_single`) is a parameter: a message and an address give what it returns or raises. A handler that
raises leaves the generator of the processor where it was. Datagrams are handled one at a time by the reader;
the metrics are left out.
-/
namespace Verif.Datagram
open Verif Verif.Wire Verif.Message

abbrev Addr := Restart.Addr

/-- `process_single`, net/stream/base.py 52–58. -/
abbrev Handler := Bytes → Addr → Except PyErr Bool

structure Conn where
  proc : Proc
  enabled : Bool
  /-- what escaped the reader, which is then over -/
  dead : Option PyErr
  /-- the messages handled, with the address each was handled for -/
  log : List (Bytes × Addr)
  deriving DecidableEq, Repr

/-- `init`, net/stream/base.py 23–27. -/
def Conn.new (k : IntKind) (o : ByteOrder) : Conn := ⟨Proc.new k o, true, none, []⟩

/-- The loop of `process_binary`, net/stream/base.py 60–72, over the messages a datagram completes: how many
were handled, what it returns or raises. -/
def handle (f : Handler) (a : Addr) : List Bytes → Nat × Except PyErr Bool
  | [] => (0, .ok true)
  | m :: ms =>
    match f m a with
    | .error e => (0, .error e)
    | .ok b =>
      match handle f a ms with
      | (n, .error e) => (n + 1, .error e)
      | (n, .ok b') => (n + 1, .ok (b && b'))

/-- One round of `_process_read`, net/udp/connection.py 195–212, with `process_datagram`,
net/stream/__init__.py 36–41. -/
def Conn.recv (f : Handler) (c : Conn) (d : Bytes) (a : Addr) : Conn :=
  if c.enabled = true ∧ c.dead = none then
    match c.proc.deliver d none with
    | (q, ms, _) =>
      match handle f a ms with
      | (_, .ok b) => { c with proc := q, enabled := b, log := c.log ++ ms.map (fun m => (m, a)) }
      | (n, .error e) =>
        { c with proc := (c.proc.deliver d (some (n + 1))).1, dead := some e,
                 log := c.log ++ (ms.take n).map (fun m => (m, a)) }
  else c

def Conn.run (f : Handler) (c : Conn) (ds : List (Bytes × Addr)) : Conn :=
  ds.foldl (fun c d => c.recv f d.1 d.2) c

/-- `send_message`, net/stream/base.py 37–44, with `_send_message`, net/stream/__init__.py 43–48: one datagram,
to the address given and not to the connection's remote address. -/
def sendMessage (p : Proc) (u : Restart.Conn) (m : Bytes) (a : Option Addr) : Restart.Conn × Option PyErr :=
  match p.encode m with
  | .error e => (u, some e)
  | .ok b => u.sendto b a

/-- `EchoMessageConnection.process_single`, net/stream/__init__.py 51–60: what a connection that handled `log`
has sent. -/
def echoes (p : Proc) (log : List (Bytes × Addr)) : List (Except PyErr Bytes × Addr) :=
  log.map (fun e => (p.encode e.1, e.2))

theorem run_cons (f : Handler) (c : Conn) (d : Bytes × Addr) (ds : List (Bytes × Addr)) :
    c.run f (d :: ds) = (c.recv f d.1 d.2).run f ds := rfl

/-! ### Whole messages -/

theorem handle_ok (f : Handler) (a : Addr) (ms : List Bytes) (h : ∀ m ∈ ms, f m a = .ok true) :
    handle f a ms = (ms.length, .ok true) := by
  induction ms with
  | nil => rfl
  | cons m ms ih =>
    simp only [handle, h m List.mem_cons_self, ih (fun x hx => h x (List.mem_cons_of_mem _ hx)), List.length_cons]
    rfl

/-- Between two messages. -/
def Clean (k : IntKind) (o : ByteOrder) (p : Proc) : Prop := p.kind = k ∧ p.order = o ∧ p.header = true ∧ p.buf = []

theorem clean_stop {k : IntKind} {o : ByteOrder} {p : Proc} (h : Clean k o p) : p.round = .stop := by
  have := size_pos p.kind
  unfold Proc.round
  rw [if_pos h.2.2.1]
  have : pop p.kind.size p.buf = none := by unfold pop; rw [h.2.2.2, if_neg (by simp; omega)]
  rw [this]

theorem consume_all (k : IntKind) (o : ByteOrder) (hs : k.signed = false) (ms : List Bytes)
    (hm : ∀ m ∈ ms, (m.length : Int) ≤ Spec.hi k) (p : Proc) (hk : p.kind = k) (ho : p.order = o)
    (hh : p.header = true) (s : Bytes) (he : (Proc.new k o).encodeAll ms = .ok s) (hb : p.buf = s) :
    Clean k o (p.consume none).1 ∧ (p.consume none).2 = (ms, none) := by
  induction ms generalizing p s with
  | nil =>
    cases he
    have hc : Clean k o p := ⟨hk, ho, hh, hb⟩
    rw [consume_stop (clean_stop hc)]
    exact ⟨hc, rfl⟩
  | cons m rest ih =>
    obtain ⟨h, hl, hd, hen⟩ := encode_spec p (by rw [hk]; exact hs) m (by rw [hk]; exact hm m List.mem_cons_self)
    obtain ⟨a, b, ha, hb', rfl⟩ := encodeAll_cons _ m rest s he
    rw [encode_congr (p := p) (by rw [hk]; rfl) (by rw [ho]; rfl), hen] at ha
    cases ha
    obtain ⟨q, q1, q2, q3, q4, q5⟩ := drain_message p hh m h b hl hd hb
    have := ih (fun x hx => hm x (List.mem_cons_of_mem _ hx)) q (q1.trans hk) (q2.trans ho) q3 b hb' q4
    rw [q5, this.2]
    exact ⟨this.1, rfl⟩

theorem deliver_all (k : IntKind) (o : ByteOrder) (hs : k.signed = false) (ms : List Bytes)
    (hm : ∀ m ∈ ms, (m.length : Int) ≤ Spec.hi k) (p : Proc) (hp : Clean k o p) (s : Bytes)
    (he : (Proc.new k o).encodeAll ms = .ok s) :
    Clean k o (p.deliver s none).1 ∧ (p.deliver s none).2 = (ms, none) := by
  unfold Proc.deliver
  rw [if_neg (by simp)]
  exact consume_all k o hs ms hm _ hp.1 hp.2.1 hp.2.2.1 s he (by rw [hp.2.2.2]; rfl)

/-- A datagram of whole messages, each with a length its prefix can hold. -/
def Intact (k : IntKind) (o : ByteOrder) (ms : List Bytes) (d : Bytes) : Prop :=
  (Proc.new k o).encodeAll ms = .ok d ∧ ∀ m ∈ ms, (m.length : Int) ≤ Spec.hi k

theorem recv_intact (k : IntKind) (o : ByteOrder) (hs : k.signed = false) (f : Handler) (c : Conn)
    (hp : Clean k o c.proc) (he : c.enabled = true) (hd : c.dead = none) (ms : List Bytes) (d : Bytes) (a : Addr)
    (hi : Intact k o ms d) (hf : ∀ m ∈ ms, f m a = .ok true) :
    Clean k o (c.recv f d a).proc ∧ (c.recv f d a).enabled = true ∧ (c.recv f d a).dead = none ∧
    (c.recv f d a).log = c.log ++ ms.map (fun m => (m, a)) := by
  obtain ⟨h1, h2⟩ := deliver_all k o hs ms hi.2 c.proc hp d hi.1
  unfold Conn.recv
  rw [if_pos ⟨he, hd⟩]
  generalize c.proc.deliver d none = r at h1 h2
  obtain ⟨q, ms', e⟩ := r
  cases h2
  dsimp only
  rw [handle_ok f a ms hf]
  exact ⟨h1, rfl, hd, rfl⟩

theorem run_intact (k : IntKind) (o : ByteOrder) (hs : k.signed = false) (f : Handler)
    (xs : List (List Bytes × Bytes × Addr)) (hi : ∀ x ∈ xs, Intact k o x.1 x.2.1)
    (hf : ∀ x ∈ xs, ∀ m ∈ x.1, f m x.2.2 = .ok true) (c : Conn)
    (hp : Clean k o c.proc) (he : c.enabled = true) (hd : c.dead = none) :
    Clean k o (c.run f (xs.map (·.2))).proc ∧ (c.run f (xs.map (·.2))).enabled = true ∧
    (c.run f (xs.map (·.2))).dead = none ∧
    (c.run f (xs.map (·.2))).log = c.log ++ xs.flatMap (fun x => x.1.map (fun m => (m, x.2.2))) := by
  induction xs generalizing c with
  | nil => exact ⟨hp, he, hd, by simp [Conn.run]⟩
  | cons x xs ih =>
    rw [List.map_cons, run_cons]
    obtain ⟨h1, h2, h3, h4⟩ := recv_intact k o hs f c hp he hd x.1 x.2.1 x.2.2 (hi x List.mem_cons_self)
      (hf x List.mem_cons_self)
    obtain ⟨g1, g2, g3, g4⟩ := ih (fun y hy => hi y (List.mem_cons_of_mem _ hy))
      (fun y hy => hf y (List.mem_cons_of_mem _ hy)) _ h1 h2 h3
    refine ⟨g1, g2, g3, ?_⟩
    rw [g4, h4, List.flatMap_cons, List.append_assoc]

/-- C79. Whatever arrives of what any number of peers sent, in any order, however often: if every datagram
that arrives holds whole messages, exactly these are handled, datagram by datagram, each for the address it
came from; the connection stays as it was. -/
theorem C79_intact (k : IntKind) (o : ByteOrder) (hs : k.signed = false) (f : Handler)
    (xs : List (List Bytes × Bytes × Addr))
    (hi : ∀ x ∈ xs, (Proc.new k o).encodeAll x.1 = .ok x.2.1 ∧ ∀ m ∈ x.1, (m.length : Int) ≤ Spec.hi k)
    (hf : ∀ x ∈ xs, ∀ m ∈ x.1, f m x.2.2 = .ok true) :
    ((Conn.new k o).run f (xs.map (·.2))).log = xs.flatMap (fun x => x.1.map (fun m => (m, x.2.2))) ∧
    ((Conn.new k o).run f (xs.map (·.2))).enabled = true ∧ ((Conn.new k o).run f (xs.map (·.2))).dead = none ∧
    ((Conn.new k o).run f (xs.map (·.2))).proc.buf = [] ∧
    ((Conn.new k o).run f (xs.map (·.2))).proc.header = true := by
  obtain ⟨h1, h2, h3, h4⟩ := run_intact k o hs f xs hi hf (Conn.new k o) ⟨rfl, rfl, rfl, rfl⟩ rfl rfl
  exact ⟨h4.trans (List.nil_append _), h2, h3, h1.2.2.2, h1.2.2.1⟩

/-- C79. What `send_message` sends is such a datagram, of the one message. -/
theorem C79_sent (k : IntKind) (o : ByteOrder) (hs : k.signed = false) (p : Proc) (hk : p.kind = k) (ho : p.order = o)
    (u : Restart.Conn) (hu : u.cur.phase = .up) (m : Bytes) (hm : (m.length : Int) ≤ Spec.hi k) (a : Addr)
    (ha : u.cur.peer = none ∨ u.cur.peer = some a) :
    ∃ d, (Proc.new k o).encodeAll [m] = .ok d ∧ (sendMessage p u m (some a)).2 = none ∧
      (sendMessage p u m (some a)).1.sent = u.sent ++ [(d, a)] := by
  obtain ⟨h, hl, hd, hen⟩ := encode_spec p (by rw [hk]; exact hs) m (by rw [hk]; exact hm)
  refine ⟨h ++ m, ?_, ?_⟩
  · simp only [Proc.encodeAll]
    rw [encode_congr (p := p) (by rw [hk]; rfl) (by rw [ho]; rfl), hen]
    simp
  · unfold sendMessage
    rw [hen]
    rcases ha with ha | ha <;> simp [Restart.Conn.sendto, Restart.Tr.dest, ha, hu]

/-- C79. A connection that echoes sends every peer its own messages back, each in a datagram of its own; a
peer that receives these in any order handles exactly what it had sent among them. -/
theorem C79_echo (k : IntKind) (o : ByteOrder) (hs : k.signed = false) (f : Handler)
    (xs : List (List Bytes × Bytes × Addr))
    (hi : ∀ x ∈ xs, (Proc.new k o).encodeAll x.1 = .ok x.2.1 ∧ ∀ m ∈ x.1, (m.length : Int) ≤ Spec.hi k)
    (hf : ∀ x ∈ xs, ∀ m ∈ x.1, f m x.2.2 = .ok true) (a : Addr) :
    ∃ ds : List Bytes,
      ((echoes (Proc.new k o) ((Conn.new k o).run f (xs.map (·.2))).log).filter (fun e => e.2 = a)).map (·.1)
        = ds.map .ok ∧
      ∀ (g : Handler) (s : Addr), (∀ m, g m s = .ok true) →
        ((Conn.new k o).run g (ds.map (fun d => (d, s)))).log
          = (xs.filter (fun x => x.2.2 = a)).flatMap (fun x => x.1.map (fun m => (m, s))) := by
  rw [(C79_intact k o hs f xs hi hf).1]
  -- the messages of the peer
  have key : ∀ ms : List Bytes, (∀ m ∈ ms, (m.length : Int) ≤ Spec.hi k) → ∃ ys : List (List Bytes × Bytes × Addr),
      ys.map (fun y => y.1) = ms.map (fun m => [m]) ∧ ms.map (Proc.new k o).encode = ys.map (fun y => .ok y.2.1) ∧
      (∀ y ∈ ys, Intact k o y.1 y.2.1) := by
    intro ms
    induction ms with
    | nil => intro _; exact ⟨[], rfl, rfl, by simp⟩
    | cons m ms ih =>
      intro hm
      obtain ⟨ys, h1, h2, h3⟩ := ih (fun x hx => hm x (List.mem_cons_of_mem _ hx))
      obtain ⟨h, hl, hd, hen⟩ := encode_spec (Proc.new k o) hs m (hm m List.mem_cons_self)
      refine ⟨([m], h ++ m, ("", 0)) :: ys, by simp [h1], by simp [h2, hen], ?_⟩
      intro y hy
      rcases List.mem_cons.mp hy with rfl | hy
      · refine ⟨?_, by simpa using hm m List.mem_cons_self⟩
        simp [Proc.encodeAll, hen]
      · exact h3 y hy
  obtain ⟨ys, h1, h2, h3⟩ := key ((xs.filter (fun x => x.2.2 = a)).flatMap (·.1)) (by
    intro m hm
    obtain ⟨x, hx, hmx⟩ := List.mem_flatMap.mp hm
    exact (hi x (List.mem_filter.mp hx).1).2 m hmx)
  refine ⟨ys.map (fun y => y.2.1), ?_, ?_⟩
  · rw [List.map_map, show ((Except.ok ∘ fun y : List Bytes × Bytes × Addr => y.2.1) : _ → Except PyErr Bytes)
      = (fun y => .ok y.2.1) from rfl, ← h2]
    clear h1 h2 h3 hf hi key
    induction xs with
    | nil => rfl
    | cons x xs ih =>
      simp only [List.flatMap_cons, echoes, List.map_append, List.filter_append] at ih ⊢
      rw [ih, List.filter_cons]
      by_cases hx : x.2.2 = a
      · simp only [List.filter_map, Function.comp_def, hx, decide_true, List.map_map]
        simp [List.filter_eq_self.mpr]
      · simp [hx, List.filter_map, Function.comp_def]
  · intro g s hg
    have hr := (C79_intact k o hs g (ys.map (fun y => (y.1, y.2.1, s))) (by
      intro x hx
      obtain ⟨y, hy, rfl⟩ := List.mem_map.mp hx
      exact h3 y hy) (by
      intro x hx m _
      obtain ⟨y, hy, rfl⟩ := List.mem_map.mp hx
      exact hg m)).1
    rw [List.map_map] at hr ⊢
    rw [show ((fun d => (d, s)) ∘ fun y : List Bytes × Bytes × Addr => y.2.1)
      = ((fun x : List Bytes × Bytes × Addr => x.2) ∘ fun y : List Bytes × Bytes × Addr => (y.1, y.2.1, s)) from rfl, hr,
      List.flatMap_map]
    have e : ∀ (ys : List (List Bytes × Bytes × Addr)),
        ys.flatMap (fun y => y.1.map (fun m => (m, s))) = (ys.map (fun y => y.1)).flatten.map (fun m => (m, s)) := by
      intro ys
      induction ys with
      | nil => rfl
      | cons y ys ih => simp [ih]
    have e' : ∀ ms : List Bytes, (ms.map (fun m => [m])).flatten = ms := by
      intro ms
      induction ms with
      | nil => rfl
      | cons m ms ih => simp [ih]
    rw [e, h1, e', List.map_flatMap]

/-! ### Everything else -/

theorem handle_count (f : Handler) (a : Addr) (ms : List Bytes) :
    (handle f a ms).1 ≤ ms.length ∧ (∀ b, (handle f a ms).2 = .ok b → (handle f a ms).1 = ms.length) := by
  induction ms with
  | nil => exact ⟨Nat.le_refl _, fun _ _ => rfl⟩
  | cons m ms ih =>
    unfold handle
    cases f m a with
    | error e => exact ⟨Nat.zero_le _, fun b h => by cases h⟩
    | ok b =>
      dsimp only
      generalize handle f a ms = r at ih ⊢
      obtain ⟨n, r⟩ := r
      cases r with
      | error e => exact ⟨by simpa using ih.1, fun b h => by cases h⟩
      | ok b' => exact ⟨by simpa using ih.1, fun _ _ => by simpa using ih.2 _ rfl⟩

/-- C79. The addresses play no part in finding the messages: whatever the datagrams hold, the messages handled
are those of all their bytes in one stream, as long as nothing the handler does ends the reader. -/
theorem C79_stream (k : IntKind) (o : ByteOrder) (f : Handler) (hf : ∀ m a, f m a = .ok true)
    (ds : List (Bytes × Addr)) :
    ((Conn.new k o).run f ds).log.map (·.1) = ((Proc.new k o).deliver (ds.map (·.1)).flatten none).2.1 := by
  have gen : ∀ (ds : List (Bytes × Addr)) (c : Conn), c.proc.round = .stop → c.enabled = true → c.dead = none →
      (c.run f ds).log.map (·.1) = c.log.map (·.1) ++ (c.proc.deliverAll (ds.map (fun d => (d.1, none)))).2.1 := by
    intro ds
    induction ds with
    | nil => intro c _ _ _; simp [Conn.run, Proc.deliverAll]
    | cons d ds ih =>
      intro c hp he hd
      rw [run_cons, List.map_cons]
      have hdr := drained { c.proc with buf := c.proc.buf ++ d.1 }
      have hok := consume_ok { c.proc with buf := c.proc.buf ++ d.1 }
      have hdv : c.proc.deliver d.1 none = Proc.consume { c.proc with buf := c.proc.buf ++ d.1 } none := by
        unfold Proc.deliver; rw [if_neg (by simp)]
      rw [← hdv] at hdr hok
      simp only [Proc.deliverAll]
      unfold Conn.recv
      rw [if_pos ⟨he, hd⟩]
      generalize c.proc.deliver d.1 none = r at hdr hok ⊢
      obtain ⟨q, ms, e⟩ := r
      dsimp only at hdr hok ⊢
      subst hok
      rw [handle_ok f d.2 ms (fun m _ => hf m _)]
      dsimp only
      have := ih { c with proc := q, enabled := true, log := c.log ++ ms.map (fun m => (m, d.2)) } hdr rfl hd
      rw [this]
      simp [List.append_assoc, Function.comp_def]
  rw [gen ds (Conn.new k o) (clean_stop (k := k) (o := o) ⟨rfl, rfl, rfl, rfl⟩) rfl rfl]
  have hcut := C30_cut_independent (Proc.new k o) (clean_stop (k := k) (o := o) ⟨rfl, rfl, rfl, rfl⟩) (ds.map (·.1))
  rw [List.map_map] at hcut
  rw [← hcut]
  rfl

/-- C79 does not hold of parts of messages: a message cut anywhere into two datagrams is handled for the
sender of the second, whoever sent the first. -/
theorem C79_split_fails (k : IntKind) (o : ByteOrder) (hs : k.signed = false) (f : Handler)
    (hf : ∀ m a, f m a = .ok true) (m x y : Bytes) (hm : (m.length : Int) ≤ Spec.hi k)
    (hc : (Proc.new k o).encode m = .ok (x ++ y)) (hy : y ≠ []) (a b : Addr) :
    ((Conn.new k o).run f [(x, a), (y, b)]).log = [(m, b)] := by
  obtain ⟨h, hl, hd, hen⟩ := encode_spec (Proc.new k o) hs m hm
  rw [hen] at hc
  have hxy : x ++ y = h ++ m := (Except.ok.inj hc).symm
  have hlen : x.length < (h ++ m).length := by
    rw [← hxy, List.length_append]
    have := List.length_pos_iff.mpr hy
    omega
  have h1 : ((Proc.new k o).deliver x none).2.1 = [] := by
    unfold Proc.deliver
    rw [if_neg (by simp)]
    exact drain_incomplete _ rfl m h hl hd (by rw [← hxy]; simp [Proc.new]) (by simpa [Proc.new] using hlen)
  have hst := C79_stream k o f hf [(x, a), (y, b)]
  have hx := C79_stream k o f hf [(x, a)]
  simp only [List.map_cons, List.map_nil, List.flatten_cons, List.flatten_nil, List.append_nil] at hst hx
  rw [h1] at hx
  have hwhole := (deliver_all k o hs [m] (by simpa using hm) (Proc.new k o) ⟨rfl, rfl, rfl, rfl⟩ (h ++ m)
    (by simp [Proc.encodeAll, hen])).2
  rw [hxy, hwhole] at hst
  -- every entry the second datagram adds carries its address
  have hadd : ∀ (c : Conn) (d : Bytes) (a : Addr), ∃ ms : List Bytes, (c.recv f d a).log = c.log ++ ms.map (fun m => (m, a)) := by
    intro c d a
    unfold Conn.recv
    split
    · generalize c.proc.deliver d none = r
      obtain ⟨q, ms, e⟩ := r
      dsimp only
      generalize handle f a ms = r
      obtain ⟨n, r⟩ := r
      cases r with
      | error e => exact ⟨ms.take n, rfl⟩
      | ok b => exact ⟨ms, rfl⟩
    · exact ⟨[], by simp⟩
  simp only [run_cons] at hst hx ⊢
  obtain ⟨ms, hms⟩ := hadd ((Conn.new k o).recv f x a) y b
  have hx0 : ((Conn.new k o).recv f x a).log = [] := List.map_eq_nil_iff.mp hx
  have e : ∀ c : Conn, c.run f [] = c := fun _ => rfl
  rw [e, hms, hx0, List.nil_append] at hst ⊢
  rw [List.map_map] at hst
  have : ms = [m] := by simpa [Function.comp_def] using hst
  rw [this]
  rfl

/-- While a message is awaited, less than what is missing changes nothing but the buffer. -/
theorem awaiting (f : Handler) (n : Nat) (ds : List (Bytes × Addr)) (c : Conn) (hh : c.proc.header = false)
    (hn : c.proc.len = n) (he : c.enabled = true) (hd : c.dead = none)
    (hl : c.proc.buf.length + (ds.map (·.1.length)).sum < n) :
    (c.run f ds).log = c.log ∧ (c.run f ds).enabled = true ∧ (c.run f ds).dead = none := by
  induction ds generalizing c with
  | nil => exact ⟨rfl, he, hd⟩
  | cons d ds ih =>
    rw [run_cons]
    rw [List.map_cons, List.sum_cons] at hl
    have hstop : ({ c.proc with buf := c.proc.buf ++ d.1 } : Proc).round = .stop := by
      unfold Proc.round
      rw [if_neg (by simp [hh])]
      have : pop c.proc.len (c.proc.buf ++ d.1) = none := by
        unfold pop
        rw [if_neg (by rw [List.length_append, hn]; omega)]
      dsimp only
      rw [this]
    have hrecv : c.recv f d.1 d.2 = { c with proc := { c.proc with buf := c.proc.buf ++ d.1 } } := by
      unfold Conn.recv Proc.deliver
      rw [if_pos ⟨he, hd⟩]
      simp only [reduceCtorEq, if_false]
      rw [consume_stop hstop]
      simp [handle, he]
    rw [hrecv]
    have := ih { c with proc := { c.proc with buf := c.proc.buf ++ d.1 } } hh hn he hd
      (by simp only [List.length_append]; omega)
    exact this

/-- C79 does not hold once one stray datagram was received: four bytes (the size of a prefix) that read as
`n`, from anyone, and no message of any peer is handled until `n` bytes have come; the connection stays
enabled. -/
theorem C79_stray_fails (k : IntKind) (o : ByteOrder) (f : Handler) (x : Bytes)
    (hx : x.length = k.size) (n : Nat) (hn : decodeInt k o x = .ok n) (a : Addr) (ds : List (Bytes × Addr))
    (hl : (ds.map (·.1.length)).sum < n) :
    ((Conn.new k o).run f ((x, a) :: ds)).log = [] ∧ ((Conn.new k o).run f ((x, a) :: ds)).enabled = true ∧
    ((Conn.new k o).run f ((x, a) :: ds)).dead = none := by
  rw [run_cons]
  have hgo : ({ Proc.new k o with buf := (Proc.new k o).buf ++ x } : Proc).round
      = .go { Proc.new k o with buf := [], len := n, header := false } := by
    unfold Proc.round
    have : pop k.size x = some (x, []) := by
      unfold pop
      rw [if_pos (by omega), Int.toNat_natCast, ← hx]
      simp
    simp only [Proc.new, List.nil_append, if_true, this, hn]
  have hstop : ({ Proc.new k o with buf := [], len := n, header := false } : Proc).round = .stop := by
    unfold Proc.round
    have : pop (n : Int) [] = none := by
      unfold pop
      rw [if_neg (by simp; omega)]
    simp [this]
  have hrecv : (Conn.new k o).recv f x a = ⟨{ Proc.new k o with buf := [], len := n, header := false }, true, none, []⟩ := by
    unfold Conn.recv Proc.deliver
    rw [if_pos ⟨rfl, rfl⟩]
    simp only [reduceCtorEq, if_false, Conn.new]
    rw [consume_go hgo, consume_stop hstop]
    simp [handle]
  rw [hrecv]
  exact awaiting f n ds _ rfl rfl rfl rfl (by simpa using hl)

/-- C79. A handler that gives up does not stop the rest of its datagram, but everything after it. -/
theorem C79_refused (k : IntKind) (o : ByteOrder) (hs : k.signed = false) (f : Handler) (ms : List Bytes) (d : Bytes)
    (a : Addr) (he : (Proc.new k o).encodeAll ms = .ok d) (hm : ∀ m ∈ ms, (m.length : Int) ≤ Spec.hi k)
    (hf : ∀ m ∈ ms, ∃ b, f m a = .ok b) (m : Bytes) (hmem : m ∈ ms) (hr : f m a = .ok false) (ds : List (Bytes × Addr)) :
    ((Conn.new k o).run f ((d, a) :: ds)).log = ms.map (fun m => (m, a)) ∧
    ((Conn.new k o).run f ((d, a) :: ds)).enabled = false := by
  have hh : ∀ ms : List Bytes, (∀ m ∈ ms, ∃ b, f m a = .ok b) → m ∈ ms → handle f a ms = (ms.length, .ok false) := by
    have aux : ∀ ms : List Bytes, (∀ m ∈ ms, ∃ b, f m a = .ok b) → ∃ b, handle f a ms = (ms.length, .ok b) := by
      intro ms
      induction ms with
      | nil => intro _; exact ⟨true, rfl⟩
      | cons x ms ih =>
        intro h
        obtain ⟨b, hb⟩ := h x List.mem_cons_self
        obtain ⟨b', hb'⟩ := ih (fun y hy => h y (List.mem_cons_of_mem _ hy))
        exact ⟨b && b', by simp [handle, hb, hb']⟩
    intro ms
    induction ms with
    | nil => intro _ h; cases h
    | cons x ms ih =>
      intro h hx
      rcases List.mem_cons.mp hx with rfl | hx
      · obtain ⟨b, hb⟩ := aux ms (fun y hy => h y (List.mem_cons_of_mem _ hy))
        simp [handle, hr, hb]
      · obtain ⟨b, hb⟩ := h x List.mem_cons_self
        simp [handle, hb, ih (fun y hy => h y (List.mem_cons_of_mem _ hy)) hx]
  rw [run_cons]
  have h1 := (deliver_all k o hs ms hm (Proc.new k o) ⟨rfl, rfl, rfl, rfl⟩ d he).2
  have hc : ∀ (ds : List (Bytes × Addr)) (c : Conn), c.enabled = false → c.run f ds = c := by
    intro ds
    induction ds with
    | nil => intro c _; rfl
    | cons d ds ih =>
      intro c h
      rw [run_cons, show c.recv f d.1 d.2 = c by unfold Conn.recv; rw [if_neg (by simp [h])]]
      exact ih c h
  have hrec : ((Conn.new k o).recv f d a).log = ms.map (fun m => (m, a)) ∧ ((Conn.new k o).recv f d a).enabled = false := by
    unfold Conn.recv
    rw [if_pos ⟨rfl, rfl⟩]
    simp only [Conn.new]
    generalize (Proc.new k o).deliver d none = r at h1
    obtain ⟨q, ms', e⟩ := r
    cases h1
    dsimp only
    rw [hh ms hf hmem]
    simp
  rw [hc ds _ hrec.2]
  exact hrec

/-- C79 does not hold of a handler that raises, such as that of a text that is not UTF-8 (net/stream/string.py
25–30): the messages behind it are not handled, nor is anything that comes later, from any peer, while the
connection stays enabled. -/
theorem C79_raise_fails (k : IntKind) (o : ByteOrder) (hs : k.signed = false) (f : Handler) (pre post : List Bytes)
    (bad : Bytes) (d : Bytes) (a : Addr) (he : (Proc.new k o).encodeAll (pre ++ bad :: post) = .ok d)
    (hm : ∀ m ∈ pre ++ bad :: post, (m.length : Int) ≤ Spec.hi k)
    (hf : ∀ m ∈ pre, f m a = .ok true) (e : PyErr) (hb : f bad a = .error e) (ds : List (Bytes × Addr)) :
    ((Conn.new k o).run f ((d, a) :: ds)).log = pre.map (fun m => (m, a)) ∧
    ((Conn.new k o).run f ((d, a) :: ds)).dead = some e ∧
    ((Conn.new k o).run f ((d, a) :: ds)).enabled = true := by
  have hh : handle f a (pre ++ bad :: post) = (pre.length, .error e) := by
    clear he hm
    induction pre with
    | nil => simp [handle, hb]
    | cons x pre ih =>
      simp [handle, hf x List.mem_cons_self, ih (fun y hy => hf y (List.mem_cons_of_mem _ hy))]
  rw [run_cons]
  have h1 := (deliver_all k o hs _ hm (Proc.new k o) ⟨rfl, rfl, rfl, rfl⟩ d he).2
  have hc : ∀ (ds : List (Bytes × Addr)) (c : Conn), c.dead = some e → c.run f ds = c := by
    intro ds
    induction ds with
    | nil => intro c _; rfl
    | cons d ds ih =>
      intro c h
      rw [run_cons, show c.recv f d.1 d.2 = c by unfold Conn.recv; rw [if_neg (by simp [h])]]
      exact ih c h
  have hrec : ((Conn.new k o).recv f d a).log = pre.map (fun m => (m, a)) ∧ ((Conn.new k o).recv f d a).dead = some e ∧
      ((Conn.new k o).recv f d a).enabled = true := by
    unfold Conn.recv
    rw [if_pos ⟨rfl, rfl⟩]
    simp only [Conn.new]
    generalize (Proc.new k o).deliver d none = r at h1
    obtain ⟨q, ms', e'⟩ := r
    cases h1
    dsimp only
    rw [hh]
    simp
  rw [hc ds _ hrec.2.1]
  exact hrec

/-- C79 does not hold of the default address: a message sent without one leaves a socket that is not connected
nowhere, even if the connection has a remote address, and counts as sent; `send_binary` of the same bytes would
reach that address. -/
theorem C79_default_fails (k : IntKind) (o : ByteOrder) (hs : k.signed = false) (l : Option Addr) (r free : Addr) (m : Bytes)
    (hm : (m.length : Int) ≤ Spec.hi k) :
    ∃ (u : Restart.Conn) (d : Bytes), Restart.createUdp false l (some r) free = .ok u ∧ u.remote = some r ∧
      (Proc.new k o).encode m = .ok d ∧
      (sendMessage (Proc.new k o) u m none).1.sent = [] ∧ (sendMessage (Proc.new k o) u m none).2 = none ∧
      (sendMessage (Proc.new k o) u m none).1.tx = d.length ∧
      (Restart.step u (.send d)).1.sent = [(d, r)] := by
  obtain ⟨h, hl, hd, hen⟩ := encode_spec (Proc.new k o) hs m hm
  refine ⟨_, h ++ m, rfl, rfl, hen, ?_⟩
  unfold sendMessage
  rw [hen]
  simp [Restart.step, Restart.Conn.sendto, Restart.Tr.dest, Restart.init]

/-! ### Cases -/

/-- Two peers, one of them with two messages in a datagram that arrives twice; a message cut between them; a
stray prefix; a text that is not UTF-8. -/
theorem C79_cases :
    let A : Addr := ("10.0.0.1", 5)
    let B : Addr := ("10.0.0.2", 6)
    let ok : Handler := fun _ _ => .ok true
    let text : Handler := fun m _ => if m = [255] then .error .unicode else .ok true
    let c := Conn.new .uint32 .network
    (c.run ok [([0, 0, 0, 1, 7, 0, 0, 0, 0], A), ([0, 0, 0, 2, 8, 9], B), ([0, 0, 0, 1, 7, 0, 0, 0, 0], A)]).log
      = [([7], A), ([], A), ([8, 9], B), ([7], A), ([], A)] ∧
    (c.run ok [([0, 0], A), ([0, 2, 8, 9], B)]).log = [([8, 9], B)] ∧
    (c.run ok [([0], A), ([0, 0, 0, 2, 8, 9], B), ([0, 0, 0, 1, 7], B)]).log = [([], B)] ∧
    (c.run ok [([0, 0, 1, 0], A), ([0, 0, 0, 2, 8, 9], B), ([0, 0, 0, 1, 7], B)]).log = [] ∧
    (c.run text [([0, 0, 0, 1, 7, 0, 0, 0, 1, 255, 0, 0, 0, 1, 7], A), ([0, 0, 0, 1, 7], B)]).log = [([7], A)] := by
  refine ⟨?_, ?_, ?_, ?_, ?_⟩ <;> decide +kernel

end Verif.Datagram
