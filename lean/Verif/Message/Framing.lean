import Verif.Wire.Props
import Verif.Utf8
/-!
Model of `runtimepy/message/__init__.py`: size-delimited messages.

`process` is a generator: nothing runs before the first `next`, and a consumer may stop at any
yield. A delivery is therefore a chunk of data with the number of messages the consumer takes
(`none`: until the generator is exhausted). `ByteFifo` (vcorelib) is a byte string with `ingest`
appending and `pop n` giving the first `n` bytes, or nothing if there are fewer.
-/
namespace Verif.Message

open Verif.Wire

/-- `MessageProcessor`, message/__init__.py 21–37. -/
structure Proc where
  kind : IntKind
  order : ByteOrder
  buf : Bytes
  header : Bool
  len : Int
  deriving DecidableEq, Repr

/-- A new processor, 26–37. -/
def Proc.new (k : IntKind) (o : ByteOrder) : Proc := ⟨k, o, [], true, 0⟩

/-- `encode`, 39–47: the length is stored in the primitive (modulo its width). -/
def Proc.encode (p : Proc) (data : Bytes) : Except PyErr Bytes :=
  match encodeInt p.kind p.order (wrap p.kind data.length) with
  | .error e => .error e
  | .ok h => .ok (h ++ data)

/-- `encode` of a string, 42–43. -/
def Proc.encodeStr (p : Proc) (s : String) : Except PyErr Bytes := p.encode (utf8 s.toList)

/-- Several messages written to one stream. -/
def Proc.encodeAll (p : Proc) : List Bytes → Except PyErr Bytes
  | [] => .ok []
  | m :: rest =>
    match p.encode m with
    | .error e => .error e
    | .ok b =>
      match p.encodeAll rest with
      | .error e => .error e
      | .ok bs => .ok (b ++ bs)

/-- `ByteFifo.pop`. -/
def pop (n : Int) (buf : Bytes) : Option (Bytes × Bytes) :=
  if n ≤ buf.length then some (buf.take n.toNat, buf.drop n.toNat) else none

/-- One round of the loop, 64–85. -/
inductive Round where
  | stop
  | go (p : Proc)
  | yield (m : Bytes) (p : Proc)
  | raised (e : PyErr) (p : Proc)
  deriving DecidableEq

def Proc.round (p : Proc) : Round :=
  if p.header then
    match pop p.kind.size p.buf with
    | none => .stop
    | some (h, rest) =>
      match decodeInt p.kind p.order h with
      | .error e => .raised e { p with buf := rest }
      | .ok n => .go { p with buf := rest, len := n, header := false }
  else
    match pop p.len p.buf with
    | none => .stop
    | some (m, rest) => .yield m { p with buf := rest }

theorem pop_some {n : Int} {buf a b : Bytes} (h : pop n buf = some (a, b)) :
    n ≤ buf.length ∧ a = buf.take n.toNat ∧ b = buf.drop n.toNat := by
  unfold pop at h
  split at h
  · simp only [Option.some.injEq, Prod.mk.injEq] at h
    exact ⟨by assumption, h.1.symm, h.2.symm⟩
  · cases h

/-- Decreases with every round. -/
def Proc.weight (p : Proc) : Nat := 2 * p.buf.length + (if p.header then 0 else 1)

theorem size_pos (k : IntKind) : 0 < k.size := by cases k <;> decide

theorem round_go {p q : Proc} (h : p.round = .go q) : q.weight < p.weight := by
  unfold Proc.round at h
  cases hh : p.header
  · rw [hh] at h
    simp only [Bool.false_eq_true, if_false] at h
    cases hp : pop p.len p.buf with
    | none => rw [hp] at h; cases h
    | some r => rw [hp] at h; cases h
  · rw [hh] at h
    simp only [if_true] at h
    cases hp : pop p.kind.size p.buf with
    | none => rw [hp] at h; cases h
    | some r =>
      obtain ⟨a, b⟩ := r
      rw [hp] at h
      dsimp only at h
      cases hd : decodeInt p.kind p.order a with
      | error e => rw [hd] at h; cases h
      | ok n =>
        rw [hd] at h
        cases h
        obtain ⟨h1, -, h3⟩ := pop_some hp
        have := size_pos p.kind
        simp only [Proc.weight, hh, h3, List.length_drop, Int.toNat_natCast, Bool.false_eq_true, if_true, if_false]
        omega

theorem round_yield {p q : Proc} {m : Bytes} (h : p.round = .yield m q) :
    p.header = false ∧ q.header = false ∧ ({ q with header := true } : Proc).weight < p.weight := by
  unfold Proc.round at h
  cases hh : p.header
  · rw [hh] at h
    simp only [Bool.false_eq_true, if_false] at h
    cases hp : pop p.len p.buf with
    | none => rw [hp] at h; cases h
    | some r =>
      obtain ⟨a, b⟩ := r
      rw [hp] at h
      cases h
      obtain ⟨-, -, h3⟩ := pop_some hp
      refine ⟨rfl, rfl, ?_⟩
      simp only [Proc.weight, hh, h3, List.length_drop, Bool.false_eq_true, if_true, if_false]
      omega
  · rw [hh] at h
    simp only [if_true] at h
    cases hp : pop p.kind.size p.buf with
    | none => rw [hp] at h; cases h
    | some r =>
      obtain ⟨a, b⟩ := r
      rw [hp] at h
      dsimp only at h
      cases hd : decodeInt p.kind p.order a with
      | error e => rw [hd] at h; cases h
      | ok n => rw [hd] at h; cases h

/-- The generator from some point on, with a consumer that takes at most `limit` further messages
and then stops: the state is the one at the yield, where `reading_header` is still false. -/
def Proc.consume (p : Proc) (limit : Option Nat) : Proc × List Bytes × Option PyErr :=
  match _h : p.round with
  | .stop => (p, [], none)
  | .raised e q => (q, [], some e)
  | .go q => q.consume limit
  | .yield m q =>
    if limit = some 1 then (q, [m], none)
    else
      match Proc.consume { q with header := true } (limit.map (· - 1)) with
      | (r, ms, e) => (r, m :: ms, e)
termination_by p.weight
decreasing_by
  · exact round_go _h
  · exact (round_yield _h).2.2

/-- One delivery: `process(data)`, 59–85, by such a consumer. A consumer that takes no message
never starts the generator. -/
def Proc.deliver (p : Proc) (data : Bytes) (limit : Option Nat) : Proc × List Bytes × Option PyErr :=
  if limit = some 0 then (p, [], none)
  else Proc.consume { p with buf := p.buf ++ data } limit

/-- Several deliveries, as long as nothing is raised. -/
def Proc.deliverAll (p : Proc) : List (Bytes × Option Nat) → Proc × List Bytes × Option PyErr
  | [] => (p, [], none)
  | (d, l) :: rest =>
    match p.deliver d l with
    | (q, ms, some e) => (q, ms, some e)
    | (q, ms, none) =>
      match q.deliverAll rest with
      | (r, ms', e) => (r, ms ++ ms', e)

/-- `messages`, 53–57, with `loads` and `decode` of each message as a parameter. -/
def Proc.messages {J : Type} (loads : Bytes → Except PyErr J) (p : Proc) (data : Bytes) : Proc × List (Except PyErr J) × Option PyErr :=
  match p.deliver data none with
  | (q, ms, e) => (q, ms.map loads, e)

/-! ### Draining -/

theorem pop_append {n : Int} {buf a b : Bytes} (d : Bytes) (h : pop n buf = some (a, b)) :
    pop n (buf ++ d) = some (a, b ++ d) := by
  obtain ⟨h1, h2, h3⟩ := pop_some h
  subst h2 h3
  unfold pop
  rw [if_pos (by rw [List.length_append]; push_cast; omega), List.take_append_of_le_length (by omega),
    List.drop_append_of_le_length (by omega)]

theorem consume_stop {p : Proc} (h : p.round = .stop) (l : Option Nat) : p.consume l = (p, [], none) := by
  unfold Proc.consume; split <;> simp_all

theorem consume_raised {p q : Proc} {e : PyErr} (h : p.round = .raised e q) (l : Option Nat) :
    p.consume l = (q, [], some e) := by
  unfold Proc.consume; split <;> simp_all

theorem consume_go {p q : Proc} (h : p.round = .go q) (l : Option Nat) : p.consume l = q.consume l := by
  rw [Proc.consume.eq_def p]
  split <;> simp_all

theorem consume_yield {p q : Proc} {m : Bytes} (h : p.round = .yield m q) :
    p.consume none = ((Proc.consume { q with header := true } none).1,
      m :: (Proc.consume { q with header := true } none).2.1, (Proc.consume { q with header := true } none).2.2) := by
  rw [Proc.consume.eq_def p]
  split <;> simp_all

theorem consume_yield_one {p q : Proc} {m : Bytes} (h : p.round = .yield m q) :
    p.consume (some 1) = (q, [m], none) := by
  rw [Proc.consume.eq_def p]
  split <;> simp_all

/-- Decoding a header of the right length never fails. -/
theorem round_never_raises (p q : Proc) (e : PyErr) : p.round ≠ .raised e q := by
  intro h
  unfold Proc.round at h
  cases hh : p.header
  · rw [hh] at h
    simp only [Bool.false_eq_true, if_false] at h
    cases hp : pop p.len p.buf with
    | none => rw [hp] at h; cases h
    | some r => rw [hp] at h; cases h
  · rw [hh] at h
    simp only [if_true] at h
    cases hp : pop p.kind.size p.buf with
    | none => rw [hp] at h; cases h
    | some r =>
      obtain ⟨a, b⟩ := r
      rw [hp] at h
      dsimp only at h
      obtain ⟨h1, h2, -⟩ := pop_some hp
      have hlen : a.length = Spec.bytes p.kind := by
        rw [h2, List.length_take, Int.toNat_natCast, ← spec_bytes]; omega
      obtain ⟨v, hv, -⟩ := (C02_decode_encode p.kind p.order a).1 hlen
      rw [hv] at h
      cases h

def Round.append (d : Bytes) : Round → Round
  | .stop => .stop
  | .go p => .go { p with buf := p.buf ++ d }
  | .yield m p => .yield m { p with buf := p.buf ++ d }
  | .raised e p => .raised e { p with buf := p.buf ++ d }

theorem round_append (p : Proc) (d : Bytes) (h : p.round ≠ .stop) :
    ({ p with buf := p.buf ++ d } : Proc).round = p.round.append d := by
  unfold Proc.round at h ⊢
  dsimp only
  cases hh : p.header
  · rw [hh] at h
    simp only [Bool.false_eq_true, if_false] at h ⊢
    cases hp : pop p.len p.buf with
    | none => rw [hp] at h; exact absurd rfl h
    | some r => rw [pop_append d hp]; rfl
  · rw [hh] at h
    simp only [if_true] at h ⊢
    cases hp : pop p.kind.size p.buf with
    | none => rw [hp] at h; exact absurd rfl h
    | some r =>
      obtain ⟨a, b⟩ := r
      rw [pop_append d hp]
      dsimp only
      cases decodeInt p.kind p.order a <;> rfl

/-- Draining a longer buffer is draining the first part and then the rest. -/
theorem drain_append (p : Proc) (d : Bytes) :
    Proc.consume { p with buf := p.buf ++ d } none
      = ((Proc.consume { (p.consume none).1 with buf := (p.consume none).1.buf ++ d } none).1,
         (p.consume none).2.1 ++ (Proc.consume { (p.consume none).1 with buf := (p.consume none).1.buf ++ d } none).2.1,
         (Proc.consume { (p.consume none).1 with buf := (p.consume none).1.buf ++ d } none).2.2) := by
  cases hr : p.round with
  | stop => simp [consume_stop hr]
  | raised e q => exact absurd hr (round_never_raises _ _ _)
  | go q =>
    have h2 := round_append p d (by rw [hr]; intro h; cases h)
    rw [hr] at h2
    rw [consume_go h2, consume_go hr]
    exact drain_append q d
  | yield m q =>
    have h2 := round_append p d (by rw [hr]; intro h; cases h)
    rw [hr] at h2
    rw [consume_yield h2, consume_yield hr]
    have := drain_append { q with header := true } d
    dsimp only at this ⊢
    rw [this]
    rfl
termination_by p.weight
decreasing_by
  · exact round_go hr
  · exact (round_yield hr).2.2

theorem consume_ok (p : Proc) : (p.consume none).2.2 = none := by
  cases hr : p.round with
  | stop => simp [consume_stop hr]
  | raised e q => exact absurd hr (round_never_raises _ _ _)
  | go q => rw [consume_go hr]; exact consume_ok q
  | yield m q => rw [consume_yield hr]; exact consume_ok _
termination_by p.weight
decreasing_by
  · exact round_go hr
  · exact (round_yield hr).2.2

/-- After draining nothing more can be read. -/
theorem drained (p : Proc) : (p.consume none).1.round = .stop := by
  cases hr : p.round with
  | stop => rw [consume_stop hr]; exact hr
  | raised e q => exact absurd hr (round_never_raises _ _ _)
  | go q => rw [consume_go hr]; exact drained q
  | yield m q => rw [consume_yield hr]; exact drained _
termination_by p.weight
decreasing_by
  · exact round_go hr
  · exact (round_yield hr).2.2

/-- C30. However a byte stream is cut, the messages are those of the whole stream delivered at
once, and so is the final state: for every processor state and every byte stream, well formed or
not. -/
theorem C30_cut_independent (p : Proc) (hp : p.round = .stop) (chunks : List Bytes) :
    p.deliverAll (chunks.map (fun c => (c, none))) = p.deliver chunks.flatten none := by
  induction chunks generalizing p with
  | nil =>
    simp only [List.map_nil, Proc.deliverAll, List.flatten_nil, Proc.deliver, List.append_nil]
    rw [if_neg (by simp)]
    exact (consume_stop hp none).symm
  | cons c rest ih =>
    simp only [List.map_cons, Proc.deliverAll, List.flatten_cons, Proc.deliver]
    rw [if_neg (by simp)]
    have hok := consume_ok { p with buf := p.buf ++ c }
    have hdr := drained { p with buf := p.buf ++ c }
    have happ := drain_append { p with buf := p.buf ++ c } rest.flatten
    dsimp only at happ
    rw [List.append_assoc] at happ
    generalize Proc.consume { p with buf := p.buf ++ c } none = r at *
    obtain ⟨q, ms, e⟩ := r
    dsimp only at *
    subst hok
    dsimp only
    rw [ih q hdr, if_neg (by simp), happ]
    simp only [Proc.deliver]
    rw [if_neg (by simp)]

/-! ### What was encoded is received -/

/-- The largest message a prefix can describe. -/
def Short (k : IntKind) (m : Bytes) : Prop := (m.length : Int) ≤ Spec.hi k

theorem encode_spec (p : Proc) (hs : p.kind.signed = false) (m : Bytes) (hm : Short p.kind m) :
    ∃ h, h.length = p.kind.size ∧ decodeInt p.kind p.order h = .ok m.length ∧ p.encode m = .ok (h ++ m) := by
  have hlo : Spec.lo p.kind = 0 := by cases hk : p.kind <;> rw [hk] at hs <;> first | rfl | cases hs
  have hp : packable p.kind.size p.kind.signed (m.length : Int) = true :=
    (packable_iff _ _).mpr ⟨by rw [hlo]; omega, hm⟩
  obtain ⟨bs, h1, h2, h3⟩ := (C01_encode_decode p.kind p.order m.length).1 ⟨by rw [hlo]; omega, hm⟩
  refine ⟨bs, by rw [h2, spec_bytes], h3, ?_⟩
  unfold Proc.encode
  rw [wrap_of_packable _ _ hp, h1]

/-- One whole message at the front. -/
theorem drain_message (p : Proc) (hh : p.header = true) (m h rest : Bytes) (hl : h.length = p.kind.size)
    (hd : decodeInt p.kind p.order h = .ok m.length) (hb : p.buf = h ++ m ++ rest) :
    ∃ q : Proc, q.kind = p.kind ∧ q.order = p.order ∧ q.header = true ∧ q.buf = rest
      ∧ p.consume none = ((q.consume none).1, m :: (q.consume none).2.1, (q.consume none).2.2) := by
  refine ⟨{ p with buf := rest, len := m.length }, rfl, rfl, hh, rfl, ?_⟩
  have h1 : p.round = .go { p with buf := m ++ rest, len := m.length, header := false } := by
    unfold Proc.round
    rw [if_pos hh]
    have : pop p.kind.size p.buf = some (h, m ++ rest) := by
      unfold pop
      rw [hb, if_pos (by simp only [List.length_append]; push_cast; omega), ← hl]
      simp
    rw [this]
    dsimp only
    rw [hd]
  have h2 : ({ p with buf := m ++ rest, len := m.length, header := false } : Proc).round
      = .yield m { p with buf := rest, len := m.length, header := false } := by
    unfold Proc.round
    simp only [Bool.false_eq_true, if_false]
    have : pop (m.length : Int) (m ++ rest) = some (m, rest) := by
      unfold pop
      rw [if_pos (by simp only [List.length_append]; push_cast; omega)]
      simp
    rw [this]
  rw [consume_go h1, consume_yield h2]
  have : ({ p with buf := rest, len := (m.length : Int), header := true } : Proc)
      = { p with buf := rest, len := m.length } := by rw [← hh]
  dsimp only
  rw [this]

/-- An incomplete message gives nothing. -/
theorem drain_incomplete (p : Proc) (hh : p.header = true) (m h : Bytes) (hl : h.length = p.kind.size)
    (hd : decodeInt p.kind p.order h = .ok m.length) (hb : p.buf <+: h ++ m) (hlt : p.buf.length < (h ++ m).length) :
    (p.consume none).2.1 = [] := by
  by_cases hs : p.buf.length < p.kind.size
  · have : p.round = .stop := by
      unfold Proc.round
      rw [if_pos hh]
      have : pop p.kind.size p.buf = none := by unfold pop; rw [if_neg (by omega)]
      rw [this]
    rw [consume_stop this]
  · obtain ⟨t, ht⟩ := hb
    have htake : p.buf.take h.length = h := by
      have h1 := congrArg (List.take h.length) ht
      rw [List.take_append_of_le_length (by omega), List.take_left' rfl] at h1
      exact h1
    have h1 : p.round = .go { p with buf := p.buf.drop h.length, len := m.length, header := false } := by
      unfold Proc.round
      rw [if_pos hh]
      have : pop p.kind.size p.buf = some (h, p.buf.drop h.length) := by
        unfold pop
        rw [if_pos (by omega), Int.toNat_natCast, ← hl, htake]
      rw [this]
      dsimp only
      rw [hd]
    have h2 : ({ p with buf := p.buf.drop h.length, len := m.length, header := false } : Proc).round = .stop := by
      unfold Proc.round
      simp only [Bool.false_eq_true, if_false]
      have : pop (m.length : Int) (p.buf.drop h.length) = none := by
        unfold pop
        rw [if_neg]
        simp only [List.length_drop, List.length_append] at hlt ⊢
        omega
      rw [this]
    rw [consume_go h1, consume_stop h2]

theorem encodeAll_cons (p : Proc) (m : Bytes) (rest : List Bytes) (bs : Bytes) (h : p.encodeAll (m :: rest) = .ok bs) :
    ∃ a b, p.encode m = .ok a ∧ p.encodeAll rest = .ok b ∧ bs = a ++ b := by
  simp only [Proc.encodeAll] at h
  cases ha : p.encode m with
  | error e => rw [ha] at h; cases h
  | ok a =>
    rw [ha] at h
    dsimp only at h
    cases hb : p.encodeAll rest with
    | error e => rw [hb] at h; cases h
    | ok b => rw [hb] at h; exact ⟨a, b, rfl, rfl, (Except.ok.inj h).symm⟩

/-- Encoding depends on the kind and the order only. -/
theorem encode_congr {p q : Proc} (hk : q.kind = p.kind) (ho : q.order = p.order) (m : Bytes) :
    q.encode m = p.encode m := by unfold Proc.encode; rw [hk, ho]

theorem encodeAll_congr {p q : Proc} (hk : q.kind = p.kind) (ho : q.order = p.order) (ms : List Bytes) :
    q.encodeAll ms = p.encodeAll ms := by
  induction ms with
  | nil => rfl
  | cons m rest ih => simp only [Proc.encodeAll, encode_congr hk ho, ih]

/-- The messages in a prefix of an encoded stream. -/
theorem drain_prefix (msgs : List Bytes) (p : Proc) (hs : p.kind.signed = false) (hh : p.header = true)
    (hm : ∀ m ∈ msgs, Short p.kind m) (stream : Bytes) (he : p.encodeAll msgs = .ok stream)
    (hb : p.buf <+: stream) :
    ∃ k b, (p.consume none).2.1 = msgs.take k ∧ k ≤ msgs.length ∧ p.encodeAll (msgs.take k) = .ok b
      ∧ b.length ≤ p.buf.length
      ∧ (k < msgs.length → ∀ b', p.encodeAll (msgs.take (k + 1)) = .ok b' → p.buf.length < b'.length) := by
  induction msgs generalizing p stream with
  | nil =>
    cases he
    have hb0 : p.buf = [] := List.prefix_nil.mp hb
    refine ⟨0, [], ?_, Nat.le_refl _, rfl, Nat.zero_le _, fun h => absurd h (Nat.lt_irrefl _)⟩
    have : p.round = .stop := by
      unfold Proc.round
      rw [if_pos hh]
      have := size_pos p.kind
      have : pop p.kind.size p.buf = none := by unfold pop; rw [hb0, if_neg (by simp; omega)]
      rw [this]
    rw [consume_stop this]; rfl
  | cons m rest ih =>
    obtain ⟨h, hl, hd, hen⟩ := encode_spec p hs m (hm m List.mem_cons_self)
    obtain ⟨a, b, ha, hb', rfl⟩ := encodeAll_cons p m rest stream he
    rw [hen] at ha
    cases ha
    by_cases hlt : p.buf.length < (h ++ m).length
    · refine ⟨0, [], ?_, Nat.zero_le _, rfl, Nat.zero_le _, fun _ b' hb1 => ?_⟩
      · refine drain_incomplete p hh m h hl hd ?_ hlt
        exact List.prefix_of_prefix_length_le hb (List.prefix_append _ _) (by omega)
      · simp only [Nat.zero_add, List.take_succ_cons, List.take_zero] at hb1
        obtain ⟨a1, b1, e1, e2, rfl⟩ := encodeAll_cons p m [] b' hb1
        rw [hen] at e1
        cases e1
        simp only [Proc.encodeAll, Except.ok.injEq] at e2
        subst e2
        simpa using hlt
    · obtain ⟨t, ht⟩ : ∃ t, p.buf = h ++ m ++ t := by
        obtain ⟨t, ht⟩ := List.prefix_of_prefix_length_le (List.prefix_append (h ++ m) b) hb (by omega)
        exact ⟨t, ht.symm⟩
      obtain ⟨q, q1, q2, q3, q4, q5⟩ := drain_message p hh m h t hl hd ht
      have htb : q.buf <+: b := by
        rw [q4]
        rw [ht] at hb
        exact (List.prefix_append_right_inj _).mp hb
      obtain ⟨k, bk, k1, k2, k3, k4, k5⟩ := ih q (by rw [q1]; exact hs) q3
        (fun x hx => by rw [q1]; exact hm x (List.mem_cons_of_mem _ hx)) b (by rw [encodeAll_congr q1 q2]; exact hb') htb
      rw [encodeAll_congr q1 q2] at k3
      refine ⟨k + 1, h ++ m ++ bk, ?_, ?_, ?_, ?_, ?_⟩
      · rw [q5]
        dsimp only
        rw [k1, List.take_succ_cons]
      · simp only [List.length_cons]; omega
      · simp only [List.take_succ_cons, Proc.encodeAll, hen, k3]
      · rw [ht, List.length_append]
        rw [q4] at k4
        simp only [List.length_append] at k4 ⊢
        omega
      · intro hk b' hb1
        rw [List.take_succ_cons] at hb1
        obtain ⟨a1, b1, e1, e2, rfl⟩ := encodeAll_cons p m _ b' hb1
        rw [hen] at e1
        cases e1
        have := k5 (by simpa using hk) b1 (by rw [encodeAll_congr q1 q2]; exact e2)
        rw [q4] at this
        rw [ht]
        simp only [List.length_append] at this ⊢
        omega

/-- C30. A receiver that consumes every message observes, after any deliveries that together are a
part of what was sent, exactly the messages completely received: the first `k`, which together have
been delivered, while the next one has not. -/
theorem C30_received (k : IntKind) (hk : k.signed = false) (o : ByteOrder) (msgs : List Bytes)
    (hm : ∀ m ∈ msgs, (m.length : Int) ≤ Spec.hi k) (stream : Bytes) (he : (Proc.new k o).encodeAll msgs = .ok stream)
    (chunks : List Bytes) (hc : chunks.flatten <+: stream) :
    ∃ n b, ((Proc.new k o).deliverAll (chunks.map (fun c => (c, none)))).2 = (msgs.take n, none) ∧ n ≤ msgs.length
      ∧ (Proc.new k o).encodeAll (msgs.take n) = .ok b ∧ b.length ≤ chunks.flatten.length
      ∧ (n < msgs.length → ∀ b', (Proc.new k o).encodeAll (msgs.take (n + 1)) = .ok b' →
          chunks.flatten.length < b'.length) := by
  have hstop : (Proc.new k o).round = .stop := by
    have := size_pos k
    unfold Proc.round
    simp only [Proc.new, if_true]
    have : pop k.size [] = none := by unfold pop; rw [if_neg (by simp; omega)]
    rw [this]
  rw [C30_cut_independent _ hstop]
  obtain ⟨n, b, h1, h2, h3, h4, h5⟩ := drain_prefix msgs ⟨k, o, chunks.flatten, true, 0⟩ hk rfl hm stream
    ((encodeAll_congr (p := Proc.new k o) (q := ⟨k, o, chunks.flatten, true, 0⟩) rfl rfl msgs).trans he) hc
  replace h3 := (encodeAll_congr (q := Proc.new k o) (p := ⟨k, o, chunks.flatten, true, 0⟩) rfl rfl (msgs.take n)).trans h3
  refine ⟨n, b, ?_, h2, h3, h4, fun hlt b' hb' =>
    h5 hlt b' ((encodeAll_congr (p := Proc.new k o) (q := ⟨k, o, chunks.flatten, true, 0⟩) rfl rfl _).trans hb')⟩
  have h6 := consume_ok ⟨k, o, chunks.flatten, true, 0⟩
  simp only [Proc.deliver, Proc.new, List.nil_append]
  rw [if_neg (by simp)]
  exact Prod.ext h1 h6

theorem encodeAll_length (k : IntKind) (hk : k.signed = false) (o : ByteOrder) (msgs : List Bytes)
    (hm : ∀ m ∈ msgs, (m.length : Int) ≤ Spec.hi k) : ∃ s, (Proc.new k o).encodeAll msgs = .ok s := by
  induction msgs with
  | nil => exact ⟨[], rfl⟩
  | cons m rest ih =>
    obtain ⟨h, -, -, he⟩ := encode_spec (Proc.new k o) hk m (hm m List.mem_cons_self)
    obtain ⟨s, hs⟩ := ih (fun x hx => hm x (List.mem_cons_of_mem _ hx))
    exact ⟨h ++ m ++ s, by simp only [Proc.encodeAll, he, hs]⟩

/-- C30. When everything has been delivered, exactly the messages sent have been observed, in
order. -/
theorem C30_all_received (k : IntKind) (hk : k.signed = false) (o : ByteOrder) (msgs : List Bytes)
    (hm : ∀ m ∈ msgs, (m.length : Int) ≤ Spec.hi k) :
    ∃ stream, (Proc.new k o).encodeAll msgs = .ok stream ∧ ∀ chunks : List Bytes, chunks.flatten = stream →
      ((Proc.new k o).deliverAll (chunks.map (fun c => (c, none)))).2 = (msgs, none) := by
  obtain ⟨stream, he⟩ := encodeAll_length k hk o msgs hm
  refine ⟨stream, he, fun chunks hc => ?_⟩
  obtain ⟨n, b, h1, h2, -, -, h5⟩ := C30_received k hk o msgs hm stream he chunks (by rw [hc]; exact List.prefix_rfl)
  rw [h1]
  by_cases hn : n < msgs.length
  · exfalso
    obtain ⟨b', hb'⟩ := encodeAll_length k hk o (msgs.take (n + 1)) (fun m hmm => hm m (List.mem_of_mem_take hmm))
    have hlt := h5 hn b' hb'
    -- the encoding of a prefix is not longer
    have hle : ∀ (ms : List Bytes) (j : Nat) (s b : Bytes), (Proc.new k o).encodeAll ms = .ok s →
        (Proc.new k o).encodeAll (ms.take j) = .ok b → b.length ≤ s.length := by
      intro ms
      induction ms with
      | nil => intro j s b h1 h2; simp only [List.take_nil] at h2; rw [h1] at h2; cases h2; exact Nat.le_refl _
      | cons m rest ih =>
        intro j s b h1 h2
        obtain ⟨a1, b1, e1, e2, rfl⟩ := encodeAll_cons _ m rest s h1
        cases j with
        | zero => simp only [List.take_zero, Proc.encodeAll, Except.ok.injEq] at h2; subst h2; simp
        | succ j =>
          rw [List.take_succ_cons] at h2
          obtain ⟨a2, b2, f1, f2, rfl⟩ := encodeAll_cons _ m _ b h2
          rw [e1] at f1
          cases f1
          have := ih j b1 b2 e2 f2
          simp only [List.length_append]
          omega
    have := hle msgs (n + 1) stream b' he hb'
    rw [hc] at hlt
    omega
  · rw [List.take_of_length_le (by omega)]

theorem wrap_card (k : IntKind) : wrap k (Spec.card k) = 0 ∧ wrap k 0 = 0 ∧ 0 < Spec.card k ∧ 0 ≤ Spec.hi k := by
  cases k <;> decide +kernel

/-- C30. A message one byte longer than a prefix can describe (`2^32` bytes for the default prefix)
is announced as empty: the receiver first sees an empty message. -/
theorem C30_overlong_fails (k : IntKind) (hk : k.signed = false) (o : ByteOrder) (m : Bytes)
    (hm : (m.length : Int) = Spec.card k) :
    ∃ stream, (Proc.new k o).encode m = .ok stream
      ∧ ((Proc.new k o).deliver stream none).2.1.head? = some [] ∧ m ≠ [] := by
  obtain ⟨c1, c2, c3, c4⟩ := wrap_card k
  obtain ⟨h, hl, hd, he⟩ := encode_spec (Proc.new k o) hk [] c4
  have h1 : (Proc.new k o).encode m = .ok (h ++ m) := by
    unfold Proc.encode at he ⊢
    simp only [Proc.new, List.length_nil, Int.natCast_zero, c2, hm, c1, List.append_nil] at he ⊢
    cases hx : encodeInt k o 0 with
    | error e => rw [hx] at he; cases he
    | ok y =>
      rw [hx] at he
      simp only [Except.ok.injEq] at he
      rw [he]
  refine ⟨h ++ m, h1, ?_, fun e => by rw [e, List.length_nil] at hm; omega⟩
  obtain ⟨q, -, -, -, -, q5⟩ := drain_message ⟨k, o, h ++ m, true, 0⟩ rfl [] h m hl hd (by simp)
  simp only [Proc.deliver, Proc.new, List.nil_append]
  rw [if_neg (by simp)]
  rw [q5]; rfl

/-- Three messages, one empty, cut inside headers and bodies. -/
example : (Proc.new .uint32 .network).encodeAll [[7, 8], [], [9]]
      = .ok [0, 0, 0, 2, 7, 8, 0, 0, 0, 0, 0, 0, 0, 1, 9] := by decide +kernel

example : ((Proc.new .uint32 .network).deliverAll
      [([0, 0, 0], none), ([2, 7], none), ([8, 0, 0], none), ([], none), ([0, 0, 0, 0, 0, 1, 9], none)]).2
    = ([[7, 8], [], [9]], none) :=
  (C30_all_received .uint32 rfl .network [[7, 8], [], [9]] (by decide)).elim (fun s h => by
    have hs : s = [0, 0, 0, 2, 7, 8, 0, 0, 0, 0, 0, 0, 0, 1, 9] := by
      have := h.1; revert this
      rw [show (Proc.new .uint32 .network).encodeAll [[7, 8], [], [9]]
        = .ok [0, 0, 0, 2, 7, 8, 0, 0, 0, 0, 0, 0, 0, 1, 9] by decide +kernel]
      intro h; exact (Except.ok.inj h).symm
    exact h.2 [[0, 0, 0], [2, 7], [8, 0, 0], [], [0, 0, 0, 0, 0, 1, 9]] (by rw [hs]; rfl))

/-! ### Abandoned iterations -/

/-- C31, what the code does instead: when the consumer stops after a message, the next delivery
takes the following bytes, as many as that message had, for a message, although they begin with a
header. For all messages, whatever follows. -/
theorem C31_abandoned_fails (k : IntKind) (hk : k.signed = false) (o : ByteOrder) (m : Bytes)
    (hm : (m.length : Int) ≤ Spec.hi k) (a rest : Bytes) (enc : Bytes) (he : (Proc.new k o).encode m = .ok enc)
    (hlen : m.length ≤ (a ++ rest).length) :
    ∃ q, (Proc.new k o).deliver (enc ++ a) (some 1) = (q, [m], none)
      ∧ (q.deliver rest none).2.1.head? = some ((a ++ rest).take m.length) := by
  obtain ⟨h, hl, hd, he'⟩ := encode_spec (Proc.new k o) hk m hm
  rw [he] at he'
  cases he'
  have h1 : (⟨k, o, h ++ m ++ a, true, 0⟩ : Proc).round = .go ⟨k, o, m ++ a, false, m.length⟩ := by
    unfold Proc.round
    simp only [if_true]
    have : pop k.size (h ++ m ++ a) = some (h, m ++ a) := by
      unfold pop
      simp only [Proc.new] at hl
      rw [if_pos (by simp only [List.length_append]; push_cast; omega), ← hl]
      simp
    rw [this]
    dsimp only
    simp only [Proc.new] at hd
    rw [hd]
  have h2 : (⟨k, o, m ++ a, false, m.length⟩ : Proc).round = .yield m ⟨k, o, a, false, m.length⟩ := by
    unfold Proc.round
    simp only [Bool.false_eq_true, if_false]
    have : pop (m.length : Int) (m ++ a) = some (m, a) := by
      unfold pop
      rw [if_pos (by simp only [List.length_append]; push_cast; omega)]
      simp
    rw [this]
  refine ⟨⟨k, o, a, false, m.length⟩, ?_, ?_⟩
  · simp only [Proc.deliver, Proc.new, List.nil_append]
    rw [if_neg (by simp), consume_go h1, consume_yield_one h2]
  · simp only [Proc.deliver]
    rw [if_neg (by simp)]
    have h3 : (⟨k, o, a ++ rest, false, m.length⟩ : Proc).round
        = .yield ((a ++ rest).take m.length) ⟨k, o, (a ++ rest).drop m.length, false, m.length⟩ := by
      unfold Proc.round
      simp only [Bool.false_eq_true, if_false]
      have : pop (m.length : Int) (a ++ rest) = some ((a ++ rest).take m.length, (a ++ rest).drop m.length) := by
        unfold pop
        rw [if_pos (by omega)]
        simp
      rw [this]
    rw [consume_yield h3]
    rfl

/-- C31 is false: two messages of four bytes; the consumer stops after the first. The next delivery
gives the header of the second as a message. -/
theorem C31_abandoned_witness_fails :
    (Proc.new .uint32 .network).encodeAll [[1, 2, 3, 4], [5, 6, 7, 8]] = .ok [0, 0, 0, 4, 1, 2, 3, 4, 0, 0, 0, 4, 5, 6, 7, 8]
    ∧ ((Proc.new .uint32 .network).deliverAll
        [([0, 0, 0, 4, 1, 2, 3, 4], some 1), ([0, 0, 0, 4, 5, 6, 7, 8], none)]).2.1.take 2 = [[1, 2, 3, 4], [0, 0, 0, 4]] := by
  refine ⟨by decide +kernel, ?_⟩
  obtain ⟨q, h1, h2⟩ := C31_abandoned_fails .uint32 rfl .network [1, 2, 3, 4] (by decide) [] [0, 0, 0, 4, 5, 6, 7, 8]
    [0, 0, 0, 4, 1, 2, 3, 4] (by decide +kernel) (by decide)
  have hok : (q.deliver [0, 0, 0, 4, 5, 6, 7, 8] none).2.2 = none := by
    simp only [Proc.deliver]; rw [if_neg (by simp)]; exact consume_ok _
  simp only [List.append_nil, List.nil_append] at h1 h2
  simp only [Proc.deliverAll, h1]
  generalize q.deliver [0, 0, 0, 4, 5, 6, 7, 8] none = r at *
  obtain ⟨r1, ms, e⟩ := r
  dsimp only at hok h2 ⊢
  subst hok
  dsimp only
  cases ms with
  | nil => cases h2
  | cons x xs =>
    simp only [List.head?_cons, Option.some.injEq] at h2
    subst h2
    rfl

/-- C31. A consumer that asks for nothing loses the data: the generator has not run. -/
theorem C31_unstarted_fails (p : Proc) (data : Bytes) : p.deliver data (some 0) = (p, [], none) := by
  simp [Proc.deliver]

/-- C31, the part that holds: if the consumer takes at least one message more than there are
complete ones (so the generator returns instead of being abandoned), any limit is as good as
none. Missing: the consumer that stops right after a message. -/
theorem C31_exhausted_partial (p : Proc) (data : Bytes) (n : Nat)
    (hn : (p.deliver data none).2.1.length < n) : p.deliver data (some n) = p.deliver data none := by
  have key : ∀ (p : Proc) (n : Nat), (p.consume none).2.1.length < n → p.consume (some n) = p.consume none := by
    intro p
    induction hw : p.weight using Nat.strongRecOn generalizing p with
    | _ w ih =>
      intro n hn
      cases hr : p.round with
      | stop => rw [consume_stop hr, consume_stop hr]
      | raised e q => rw [consume_raised hr, consume_raised hr]
      | go q =>
        rw [consume_go hr] at hn
        rw [consume_go hr, consume_go hr]
        exact ih _ (hw ▸ round_go hr) q rfl n hn
      | yield m q =>
        rw [consume_yield hr] at hn ⊢
        simp only [List.length_cons] at hn
        have h1 := ih _ (hw ▸ (round_yield hr).2.2) { q with header := true } rfl (n - 1) (by omega)
        rw [Proc.consume.eq_def p]
        split
        · simp_all
        · simp_all
        · simp_all
        · rename_i m' q' hy
          rw [hr] at hy
          cases hy
          rw [if_neg (by simp; omega)]
          simp only [Option.map_some, h1]
  have h0 : ¬ ((some n : Option Nat) = some 0) := by
    intro h; cases h; omega
  simp only [Proc.deliver] at hn ⊢
  rw [if_neg (by simp)] at hn
  rw [if_neg h0, if_neg (by simp)]
  exact key _ n hn

/-- The hypotheses are met: one message in the data, two asked for. -/
example : ((Proc.new .uint8 .big).deliver [1, 5, 2] none).2.1.length < 2 := by
  have h1 : (⟨.uint8, .big, [1, 5, 2], true, 0⟩ : Proc).round = .go ⟨.uint8, .big, [5, 2], false, 1⟩ := by decide +kernel
  have h2 : (⟨.uint8, .big, [5, 2], false, 1⟩ : Proc).round = .yield [5] ⟨.uint8, .big, [2], false, 1⟩ := by decide +kernel
  have h3 : (⟨.uint8, .big, [2], true, 1⟩ : Proc).round = .go ⟨.uint8, .big, [], false, 2⟩ := by decide +kernel
  have h4 : (⟨.uint8, .big, [], false, 2⟩ : Proc).round = .stop := by decide +kernel
  simp only [Proc.deliver, Proc.new, List.nil_append]
  rw [if_neg (by simp), consume_go h1, consume_yield h2, consume_go h3, consume_stop h4]
  decide

end Verif.Message
