import Verif.Message.Framing
/-!
Model of the receiving half of channel events: `TelemetryChannelEnvironment.parse_event_stream`,
runtimepy/channel/environment/telemetry.py 129–175, with the header of
runtimepy/channel/event/header.py and the state of runtimepy/channel/registry.py 62–86.

The header protocol has two integer fields, an identifier and a timestamp, in network order (the
order of an array of primitives, `codec/protocol/base.py`); it is modelled by its bytes. The kinds of
the fields are parameters of the model; those of the code are `Hdr.std`, a `uint16` and a `uint64`.
-/
namespace Verif.Event

open Verif.Wire Verif.Message

/-- An event as written: identifier, timestamp, kind and value of the primitive. -/
structure Ev where
  ident : Int
  ts : Int
  kind : Kind
  val : Val
  deriving DecidableEq, Repr

/-- `ParsedEvent`, registry.py 43–48. -/
structure Parsed where
  name : String
  ts : Int
  val : Val
  deriving DecidableEq, Repr

/-- The kinds of the header fields. -/
structure Hdr where
  ki : IntKind
  kt : IntKind
  deriving DecidableEq, Repr

/-- Those of `PrimitiveEventHeader`, header.py 9, 21–25. -/
def Hdr.std : Hdr := ⟨.uint16, .uint64⟩

def Hdr.size (H : Hdr) : Nat := H.ki.size + H.kt.size

/-- The bytes of the header, header.py 21–25: storing in the fields wraps. -/
def headerBytes (H : Hdr) (ident ts : Int) : Except PyErr Bytes :=
  match encodeInt H.ki .network (wrap H.ki ident) with
  | .error e => .error e
  | .ok a =>
    match encodeInt H.kt .network (wrap H.kt ts) with
    | .error e => .error e
    | .ok b => .ok (a ++ b)

/-- What `_poll` writes, event/__init__.py 92–95. -/
def Ev.bytes (H : Hdr) (e : Ev) : Except PyErr Bytes :=
  match headerBytes H e.ident e.ts with
  | .error x => .error x
  | .ok h =>
    match encode e.kind .network e.val with
    | .error x => .error x
    | .ok b => .ok (h ++ b)

/-- What the parser needs to know of an environment: its header, the name of an identifier (`names.name`), and
the kind of the value of a name: that of the bit-fields primitive if there is such a field, else
that of the channel (telemetry.py 159–167). -/
structure Names where
  hdr : Hdr
  nameOf : Int → Option String
  kindOf : String → Option Kind

/-- The parser's lasting state: fifo, `header_ready`, and the two header fields. -/
structure Rx where
  buf : Bytes
  ready : Bool
  ident : Int
  ts : Int
  deriving DecidableEq, Repr

def Rx.new : Rx := ⟨[], false, 0, 0⟩

/-- One round of the loop, 141–175; `name` is the local variable. -/
inductive Round where
  | stop
  | go (p : Rx) (name : String)
  | yield (m : Parsed) (p : Rx)
  | raised (e : PyErr) (p : Rx)
  deriving DecidableEq

def Rx.round (env : Names) (p : Rx) (name : String) : Round :=
  if p.ready then
    match env.kindOf name with
    | none => .stop
    | some k =>
      match pop k.size p.buf with
      | none => .stop
      | some (d, rest) =>
        match decode k .network d with
        | .error e => .raised e { p with buf := rest }
        | .ok v => .yield ⟨name, p.ts, v⟩ { p with buf := rest }
  else
    match pop env.hdr.size p.buf with
    | none => .stop
    | some (h, rest) =>
      match decodeInt env.hdr.ki .network (h.take env.hdr.ki.size), decodeInt env.hdr.kt .network (h.drop env.hdr.ki.size) with
      | .ok i, .ok t =>
        match env.nameOf i with
        | none => .raised .assertion { p with buf := rest, ident := i, ts := t }
        | some n => .go { p with buf := rest, ident := i, ts := t, ready := true } n
      | .error e, _ => .raised e { p with buf := rest }
      | _, .error e => .raised e { p with buf := rest }

theorem hdr_size_pos (H : Hdr) : 0 < H.size := by
  have := size_pos H.ki
  unfold Hdr.size
  omega

/-- Decreases with every round. -/
def Rx.weight (p : Rx) : Nat := 2 * p.buf.length + (if p.ready then 1 else 0)

theorem round_go {env : Names} {p q : Rx} {n m : String} (h : p.round env n = .go q m) :
    p.ready = false ∧ q.ready = true ∧ q.weight < p.weight := by
  unfold Rx.round at h
  cases hh : p.ready
  · rw [hh] at h
    simp only [Bool.false_eq_true, if_false] at h
    cases hp : pop env.hdr.size p.buf with
    | none => rw [hp] at h; cases h
    | some r =>
      obtain ⟨a, b⟩ := r
      rw [hp] at h
      dsimp only at h
      obtain ⟨h1, -, h3⟩ := pop_some hp
      cases hi : decodeInt env.hdr.ki .network (a.take env.hdr.ki.size) with
      | error e => rw [hi] at h; cases h
      | ok i =>
        rw [hi] at h
        cases ht : decodeInt env.hdr.kt .network (a.drop env.hdr.ki.size) with
        | error e => rw [ht] at h; cases h
        | ok t =>
          rw [ht] at h
          dsimp only at h
          cases hn : env.nameOf i with
          | none => rw [hn] at h; cases h
          | some m =>
            rw [hn] at h
            cases h
            refine ⟨rfl, rfl, ?_⟩
            have hpos := hdr_size_pos env.hdr
            simp only [Rx.weight, hh, h3, Int.toNat_natCast, List.length_drop, Bool.false_eq_true, if_true, if_false]
            omega
  · rw [hh] at h
    simp only [if_true] at h
    cases hk : env.kindOf n with
    | none => rw [hk] at h; cases h
    | some k =>
      rw [hk] at h
      dsimp only at h
      cases hp : pop k.size p.buf with
      | none => rw [hp] at h; cases h
      | some r =>
        rw [hp] at h
        dsimp only at h
        cases hd : decode k .network r.1 <;> rw [hd] at h <;> cases h

theorem round_yield {env : Names} {p q : Rx} {n : String} {m : Parsed} (h : p.round env n = .yield m q) :
    p.ready = true ∧ q.ready = true ∧ ({ q with ready := false } : Rx).weight < p.weight := by
  unfold Rx.round at h
  cases hh : p.ready
  · rw [hh] at h
    simp only [Bool.false_eq_true, if_false] at h
    cases hp : pop env.hdr.size p.buf with
    | none => rw [hp] at h; cases h
    | some r =>
      rw [hp] at h
      dsimp only at h
      cases hi : decodeInt env.hdr.ki .network (r.1.take env.hdr.ki.size) with
      | error e => rw [hi] at h; cases h
      | ok i =>
        rw [hi] at h
        cases ht : decodeInt env.hdr.kt .network (r.1.drop env.hdr.ki.size) with
        | error e => rw [ht] at h; cases h
        | ok t =>
          rw [ht] at h
          dsimp only at h
          cases hn : env.nameOf i <;> rw [hn] at h <;> cases h
  · rw [hh] at h
    simp only [if_true] at h
    cases hk : env.kindOf n with
    | none => rw [hk] at h; cases h
    | some k =>
      rw [hk] at h
      dsimp only at h
      cases hp : pop k.size p.buf with
      | none => rw [hp] at h; cases h
      | some r =>
        obtain ⟨a, b⟩ := r
        rw [hp] at h
        dsimp only at h
        cases hd : decode k .network a with
        | error e => rw [hd] at h; cases h
        | ok v =>
          rw [hd] at h
          cases h
          obtain ⟨-, -, h3⟩ := pop_some hp
          refine ⟨rfl, rfl, ?_⟩
          simp only [Rx.weight, hh, h3, List.length_drop, Bool.false_eq_true, if_true, if_false]
          omega

/-- Where the loop ends: the state, the local name, the events and an exception. -/
structure End where
  p : Rx
  name : String
  evs : List Parsed
  err : Option PyErr
  deriving DecidableEq, Repr

/-- The generator from some point on, with a consumer that takes at most `limit` further events. -/
def Rx.consume (env : Names) (p : Rx) (name : String) (limit : Option Nat) : End :=
  match _h : p.round env name with
  | .stop => ⟨p, name, [], none⟩
  | .raised e q => ⟨q, name, [], some e⟩
  | .go q n => q.consume env n limit
  | .yield m q =>
    if limit = some 1 then ⟨q, name, [m], none⟩
    else
      let r := Rx.consume env { q with ready := false } name (limit.map (· - 1))
      { r with evs := m :: r.evs }
termination_by p.weight
decreasing_by
  · exact (round_go _h).2.2
  · exact (round_yield _h).2.2

/-- `parse_event_stream`, 129–175: the local name is empty at each call. -/
def Rx.parse (env : Names) (p : Rx) (data : Bytes) (limit : Option Nat) : End :=
  if limit = some 0 then ⟨p, "", [], none⟩
  else Rx.consume env { p with buf := p.buf ++ data } "" limit

/-- Several calls, as long as nothing is raised. -/
def Rx.parseAll (env : Names) (p : Rx) : List (Bytes × Option Nat) → Rx × List Parsed × Option PyErr
  | [] => (p, [], none)
  | (d, l) :: rest =>
    match (p.parse env d l).err with
    | some e => ((p.parse env d l).p, (p.parse env d l).evs, some e)
    | none =>
      (((p.parse env d l).p.parseAll env rest).1,
       (p.parse env d l).evs ++ ((p.parse env d l).p.parseAll env rest).2.1,
       ((p.parse env d l).p.parseAll env rest).2.2)

/-! ### Unfolding -/

theorem consume_stop {env : Names} {p : Rx} {n : String} (h : p.round env n = .stop) (l : Option Nat) :
    p.consume env n l = ⟨p, n, [], none⟩ := by
  rw [Rx.consume.eq_def]; split <;> simp_all

theorem consume_raised {env : Names} {p q : Rx} {n : String} {e : PyErr} (h : p.round env n = .raised e q) (l : Option Nat) :
    p.consume env n l = ⟨q, n, [], some e⟩ := by
  rw [Rx.consume.eq_def]; split <;> simp_all

theorem consume_go {env : Names} {p q : Rx} {n m : String} (h : p.round env n = .go q m) (l : Option Nat) :
    p.consume env n l = q.consume env m l := by
  rw [Rx.consume.eq_def env p]; split <;> simp_all

theorem consume_yield {env : Names} {p q : Rx} {n : String} {m : Parsed} (h : p.round env n = .yield m q) :
    p.consume env n none = { Rx.consume env { q with ready := false } n none with
      evs := m :: (Rx.consume env { q with ready := false } n none).evs } := by
  rw [Rx.consume.eq_def env p]; split <;> simp_all

theorem consume_yield_one {env : Names} {p q : Rx} {n : String} {m : Parsed} (h : p.round env n = .yield m q) :
    p.consume env n (some 1) = ⟨q, n, [m], none⟩ := by
  rw [Rx.consume.eq_def env p]; split <;> simp_all

def Round.append (d : Bytes) : Round → Round
  | .stop => .stop
  | .go p n => .go { p with buf := p.buf ++ d } n
  | .yield m p => .yield m { p with buf := p.buf ++ d }
  | .raised e p => .raised e { p with buf := p.buf ++ d }

theorem round_append (env : Names) (p : Rx) (n : String) (d : Bytes) (h : p.round env n ≠ .stop) :
    ({ p with buf := p.buf ++ d } : Rx).round env n = (p.round env n).append d := by
  unfold Rx.round at h ⊢
  dsimp only
  cases hh : p.ready
  · rw [hh] at h
    simp only [Bool.false_eq_true, if_false] at h ⊢
    cases hp : pop env.hdr.size p.buf with
    | none => rw [hp] at h; exact absurd rfl h
    | some r =>
      rw [pop_append d hp]
      dsimp only
      cases decodeInt env.hdr.ki .network (r.1.take env.hdr.ki.size) with
      | error e => rfl
      | ok i =>
        cases decodeInt env.hdr.kt .network (r.1.drop env.hdr.ki.size) with
        | error e => rfl
        | ok t => dsimp only; cases env.nameOf i <;> rfl
  · rw [hh] at h
    simp only [if_true] at h ⊢
    cases hk : env.kindOf n with
    | none => rw [hk] at h; exact absurd rfl h
    | some k =>
      rw [hk] at h
      dsimp only at h ⊢
      cases hp : pop k.size p.buf with
      | none => rw [hp] at h; exact absurd rfl h
      | some r =>
        rw [pop_append d hp]
        dsimp only
        cases decode k .network r.1 <;> rfl

/-- Draining a longer buffer is draining the first part and then, *with the same local name*, the
rest. -/
theorem drain_append (env : Names) (p : Rx) (n : String) (d : Bytes) (he : (p.consume env n none).err = none) :
    Rx.consume env { p with buf := p.buf ++ d } n none
      = { Rx.consume env { (p.consume env n none).p with buf := (p.consume env n none).p.buf ++ d } (p.consume env n none).name none with
          evs := (p.consume env n none).evs
            ++ (Rx.consume env { (p.consume env n none).p with buf := (p.consume env n none).p.buf ++ d } (p.consume env n none).name none).evs } := by
  cases hr : p.round env n with
  | stop => simp [consume_stop hr]
  | raised e q => rw [consume_raised hr] at he; cases he
  | go q m =>
    have h2 := round_append env p n d (by rw [hr]; intro h; cases h)
    rw [hr] at h2
    rw [consume_go hr] at he
    rw [consume_go h2, consume_go hr]
    exact drain_append env q m d he
  | yield m q =>
    have h2 := round_append env p n d (by rw [hr]; intro h; cases h)
    rw [hr] at h2
    rw [consume_yield hr] at he
    rw [consume_yield h2, consume_yield hr]
    have := drain_append env { q with ready := false } n d he
    dsimp only at this ⊢
    rw [this]
    rfl
termination_by p.weight
decreasing_by
  · exact (round_go hr).2.2
  · exact (round_yield hr).2.2

/-- After draining nothing more can be read. -/
theorem drained (env : Names) (p : Rx) (n : String) (he : (p.consume env n none).err = none) :
    (p.consume env n none).p.round env (p.consume env n none).name = .stop := by
  cases hr : p.round env n with
  | stop => rw [consume_stop hr]; exact hr
  | raised e q => rw [consume_raised hr] at he; cases he
  | go q m => rw [consume_go hr] at he ⊢; exact drained env q m he
  | yield m q => rw [consume_yield hr] at he ⊢; exact drained env _ n he
termination_by p.weight
decreasing_by
  · exact (round_go hr).2.2
  · exact (round_yield hr).2.2

/-- Without a pending header the local name does not matter. -/
theorem round_name (env : Names) (p : Rx) (n n' : String) (h : p.ready = false) : p.round env n = p.round env n' := by
  unfold Rx.round; simp [h]

theorem consume_name (env : Names) (p : Rx) (n n' : String) (h : p.ready = false) (l : Option Nat) :
    (p.consume env n l).p = (p.consume env n' l).p ∧ (p.consume env n l).evs = (p.consume env n' l).evs
      ∧ (p.consume env n l).err = (p.consume env n' l).err := by
  cases hr : p.round env n with
  | stop =>
    rw [consume_stop hr, consume_stop (by rw [← round_name env p n n' h]; exact hr)]; exact ⟨rfl, rfl, rfl⟩
  | raised e q =>
    rw [consume_raised hr, consume_raised (by rw [← round_name env p n n' h]; exact hr)]; exact ⟨rfl, rfl, rfl⟩
  | go q m =>
    rw [consume_go hr, consume_go (p := p) (n := n') (by rw [← round_name env p n n' h]; exact hr)]; exact ⟨rfl, rfl, rfl⟩
  | yield m q => rw [(round_yield hr).1] at h; cases h

/-! ### Events of a stream -/

/-- An event that can be written and named. -/
structure Ev.Good (env : Names) (e : Ev) : Prop where
  ident : Spec.lo env.hdr.ki ≤ e.ident ∧ e.ident ≤ Spec.hi env.hdr.ki
  ts : Spec.lo env.hdr.kt ≤ e.ts ∧ e.ts ≤ Spec.hi env.hdr.kt
  val : Spec.HasKind e.kind e.val
  named : ∃ n, env.nameOf e.ident = some n ∧ env.kindOf n = some e.kind

/-- The event as the receiver should see it. -/
def Ev.seen (env : Names) (e : Ev) : Parsed := ⟨(env.nameOf e.ident).getD "", e.ts, e.val⟩

/-- The bytes of several events. -/
def streamOf (H : Hdr) : List Ev → Except PyErr Bytes
  | [] => .ok []
  | e :: rest =>
    match e.bytes H with
    | .error x => .error x
    | .ok a =>
      match streamOf H rest with
      | .error x => .error x
      | .ok b => .ok (a ++ b)

theorem header_spec (H : Hdr) (i t : Int) (hi : Spec.lo H.ki ≤ i ∧ i ≤ Spec.hi H.ki)
    (ht : Spec.lo H.kt ≤ t ∧ t ≤ Spec.hi H.kt) :
    ∃ h, headerBytes H i t = .ok h ∧ h.length = H.size ∧ decodeInt H.ki .network (h.take H.ki.size) = .ok i
      ∧ decodeInt H.kt .network (h.drop H.ki.size) = .ok t := by
  obtain ⟨a, a1, a2, a3⟩ := (C01_encode_decode H.ki .network i).1 hi
  obtain ⟨b, b1, b2, b3⟩ := (C01_encode_decode H.kt .network t).1 ht
  rw [← spec_bytes] at a2 b2
  refine ⟨a ++ b, ?_, by rw [List.length_append, a2, b2]; rfl, ?_, ?_⟩
  · unfold headerBytes
    rw [wrap_of_packable _ _ ((packable_iff _ _).mpr hi), wrap_of_packable _ _ ((packable_iff _ _).mpr ht), a1, b1]
  · rw [List.take_left' a2]; exact a3
  · rw [List.drop_left' a2]; exact b3

theorem bytes_spec {env : Names} {e : Ev} (he : e.Good env) :
    ∃ h b, e.bytes env.hdr = .ok (h ++ b) ∧ h.length = env.hdr.size ∧ b.length = e.kind.size
      ∧ decodeInt env.hdr.ki .network (h.take env.hdr.ki.size) = .ok e.ident ∧ decodeInt env.hdr.kt .network (h.drop env.hdr.ki.size) = .ok e.ts
      ∧ decode e.kind .network b = .ok e.val := by
  obtain ⟨h, h1, h2, h3, h4⟩ := header_spec env.hdr e.ident e.ts he.ident he.ts
  obtain ⟨b, b1, b2, b3⟩ := C01_all_kinds e.kind .network e.val he.val
  exact ⟨h, b, by unfold Ev.bytes; rw [h1, b1], h2, b2, h3, h4, b3⟩

theorem round_header (env : Names) (p : Rx) (n : String) (hr : p.ready = false) (h rest : Bytes) (i t : Int)
    (hl : h.length = env.hdr.size) (hi : decodeInt env.hdr.ki .network (h.take env.hdr.ki.size) = .ok i)
    (ht : decodeInt env.hdr.kt .network (h.drop env.hdr.ki.size) = .ok t) (hb : p.buf = h ++ rest) (m : String) (hm : env.nameOf i = some m) :
    p.round env n = .go ⟨rest, true, i, t⟩ m := by
  unfold Rx.round
  rw [hr]
  simp only [Bool.false_eq_true, if_false]
  have : pop env.hdr.size p.buf = some (h, rest) := by
    unfold pop
    rw [hb, if_pos (by rw [List.length_append]; push_cast; omega), ← hl]
    simp
  rw [this]
  dsimp only
  rw [hi, ht]
  dsimp only
  rw [hm]

theorem round_payload (env : Names) (n : String) (i t : Int) (b rest : Bytes) (k : Kind) (v : Val)
    (hk : env.kindOf n = some k) (hl : b.length = k.size) (hd : decode k .network b = .ok v) :
    (⟨b ++ rest, true, i, t⟩ : Rx).round env n = .yield ⟨n, t, v⟩ ⟨rest, true, i, t⟩ := by
  unfold Rx.round
  simp only [if_true, hk]
  have : pop k.size (b ++ rest) = some (b, rest) := by
    unfold pop
    rw [if_pos (by rw [List.length_append]; push_cast; omega), ← hl]
    simp
  rw [this]
  dsimp only
  rw [hd]

theorem round_payload_short (env : Names) (n : String) (i t : Int) (b : Bytes) (k : Kind)
    (hk : env.kindOf n = some k) (hl : b.length < k.size) : (⟨b, true, i, t⟩ : Rx).round env n = .stop := by
  unfold Rx.round
  simp only [if_true, hk]
  have : pop k.size b = none := by unfold pop; rw [if_neg (by omega)]
  rw [this]

theorem streamOf_cons (H : Hdr) (e : Ev) (rest : List Ev) (s : Bytes) (h : streamOf H (e :: rest) = .ok s) :
    ∃ a b, e.bytes H = .ok a ∧ streamOf H rest = .ok b ∧ s = a ++ b := by
  simp only [streamOf] at h
  cases ha : e.bytes H with
  | error x => rw [ha] at h; cases h
  | ok a =>
    rw [ha] at h
    dsimp only at h
    cases hb : streamOf H rest with
    | error x => rw [hb] at h; cases h
    | ok b => rw [hb] at h; exact ⟨a, b, rfl, rfl, (Except.ok.inj h).symm⟩

theorem stream_ok (env : Names) (evs : List Ev) (hg : ∀ e ∈ evs, e.Good env) : ∃ s, streamOf env.hdr evs = .ok s := by
  induction evs with
  | nil => exact ⟨[], rfl⟩
  | cons e rest ih =>
    obtain ⟨h, b, hb, -⟩ := bytes_spec (hg e List.mem_cons_self)
    obtain ⟨s, hs⟩ := ih (fun x hx => hg x (List.mem_cons_of_mem _ hx))
    exact ⟨h ++ b ++ s, by simp only [streamOf, hb, hs]⟩

/-- The length of the first `k` events in a stream. -/
def offset (H : Hdr) (evs : List Ev) (k : Nat) : Nat := ((evs.take k).map (fun e => H.size + e.kind.size)).sum

theorem offset_succ (H : Hdr) (e : Ev) (rest : List Ev) (k : Nat) :
    offset H (e :: rest) (k + 1) = H.size + e.kind.size + offset H rest k := by
  simp [offset]

theorem stream_length (env : Names) (evs : List Ev) (hg : ∀ e ∈ evs, e.Good env) (s : Bytes)
    (h : streamOf env.hdr evs = .ok s) : s.length = offset env.hdr evs evs.length := by
  induction evs generalizing s with
  | nil => simp only [streamOf, Except.ok.injEq] at h; subst h; rfl
  | cons e rest ih =>
    obtain ⟨a, b, ha, hb, rfl⟩ := streamOf_cons _ e rest s h
    obtain ⟨x, y, hxy, hx, hy, -⟩ := bytes_spec (hg e List.mem_cons_self)
    rw [hxy] at ha
    cases ha
    rw [List.length_cons, offset_succ, List.length_append, List.length_append, hx, hy,
      ih (fun x hx => hg x (List.mem_cons_of_mem _ hx)) b hb]

/-- What a part of an event stream gives: the events completely received, and whether a header is
pending. -/
theorem drain_prefix (env : Names) (evs : List Ev) (hg : ∀ e ∈ evs, e.Good env) (p : Rx) (hr : p.ready = false)
    (n : String) (s : Bytes) (hs : streamOf env.hdr evs = .ok s) (hb : p.buf <+: s) :
    ∃ k, k ≤ evs.length ∧ (p.consume env n none).evs = (evs.take k).map (Ev.seen env)
      ∧ (p.consume env n none).err = none ∧ offset env.hdr evs k ≤ p.buf.length
      ∧ (k < evs.length → p.buf.length < offset env.hdr evs (k + 1))
      ∧ (p.consume env n none).p.ready = decide (offset env.hdr evs k + env.hdr.size ≤ p.buf.length) := by
  induction evs generalizing p s n with
  | nil =>
    simp only [streamOf, Except.ok.injEq] at hs
    subst hs
    have hb0 : p.buf = [] := List.prefix_nil.mp hb
    have : p.round env n = .stop := by
      unfold Rx.round
      rw [hr]
      simp only [Bool.false_eq_true, if_false]
      have : pop env.hdr.size p.buf = none := by unfold pop; rw [hb0, if_neg (by have := hdr_size_pos env.hdr; simp; omega)]
      rw [this]
    refine ⟨0, Nat.le_refl _, ?_, ?_, ?_, fun h => absurd h (Nat.lt_irrefl _), ?_⟩
    · rw [consume_stop this]; rfl
    · rw [consume_stop this]
    · simp [offset]
    · rw [consume_stop this, hb0]; have := hdr_size_pos env.hdr; simp [offset, hr]; omega
  | cons e rest ih =>
    obtain ⟨a, b, ha, hb', rfl⟩ := streamOf_cons _ e rest s hs
    obtain ⟨x, y, hxy, hx, hy, d1, d2, d3⟩ := bytes_spec (hg e List.mem_cons_self)
    obtain ⟨m, hm, hk⟩ := (hg e List.mem_cons_self).named
    rw [hxy] at ha
    cases ha
    have off1 : offset env.hdr (e :: rest) (0 + 1) = env.hdr.size + e.kind.size := by simp [offset]
    have off0 : offset env.hdr (e :: rest) 0 = 0 := by simp [offset]
    by_cases c1 : p.buf.length < env.hdr.size
    · have : p.round env n = .stop := by
        unfold Rx.round
        rw [hr]
        simp only [Bool.false_eq_true, if_false]
        have : pop env.hdr.size p.buf = none := by unfold pop; rw [if_neg (by omega)]
        rw [this]
      refine ⟨0, Nat.zero_le _, ?_, ?_, ?_, fun _ => ?_, ?_⟩
      · rw [consume_stop this]; rfl
      · rw [consume_stop this]
      · omega
      · omega
      · rw [consume_stop this]
        simp only [off0, hr]
        exact (decide_eq_false (by omega)).symm
    · obtain ⟨t, ht⟩ := List.prefix_of_prefix_length_le (l₁ := x) (l₂ := p.buf)
        ⟨y ++ b, by rw [List.append_assoc]⟩ hb (by omega)
      have hgo := round_header env p n hr x t e.ident e.ts hx d1 d2 ht.symm m hm
      have hbt : t <+: y ++ b := by
        rw [← ht, List.append_assoc] at hb
        exact (List.prefix_append_right_inj _).mp hb
      have hlen : p.buf.length = env.hdr.size + t.length := by rw [← ht, List.length_append, hx]
      by_cases c2 : t.length < e.kind.size
      · have hst := round_payload_short env m e.ident e.ts t e.kind hk c2
        refine ⟨0, Nat.zero_le _, ?_, ?_, ?_, fun _ => ?_, ?_⟩
        · rw [consume_go hgo, consume_stop hst]; rfl
        · rw [consume_go hgo, consume_stop hst]
        · omega
        · omega
        · rw [consume_go hgo, consume_stop hst]
          simp only [off0]
          exact (decide_eq_true (by omega)).symm
      · obtain ⟨t', ht'⟩ := List.prefix_of_prefix_length_le (l₁ := y) (l₂ := t)
          (List.prefix_append _ _) hbt (by omega)
        have hbt' : t' <+: b := by
          rw [← ht'] at hbt
          exact (List.prefix_append_right_inj _).mp hbt
        have hy2 := round_payload env m e.ident e.ts y t' e.kind e.val hk hy d3
        rw [ht'] at hy2
        obtain ⟨k, k1, k2, k3, k4, k5, k6⟩ := ih (fun x hx => hg x (List.mem_cons_of_mem _ hx))
          ⟨t', false, e.ident, e.ts⟩ rfl m b hb' hbt'
        have hlen2 : t.length = e.kind.size + t'.length := by rw [← ht', List.length_append, hy]
        dsimp only at k4 k5 k6
        refine ⟨k + 1, by simp only [List.length_cons]; omega, ?_, ?_, ?_, fun hlt => ?_, ?_⟩
        · rw [consume_go hgo, consume_yield hy2]
          dsimp only
          rw [k2, List.take_succ_cons, List.map_cons]
          simp [Ev.seen, hm]
        · rw [consume_go hgo, consume_yield hy2]; exact k3
        · rw [offset_succ]; omega
        · have := k5 (by simp only [List.length_cons] at hlt; omega)
          rw [offset_succ]; omega
        · rw [consume_go hgo, consume_yield hy2]
          dsimp only
          rw [k6, offset_succ]
          congr 1
          simp only [eq_iff_iff]
          omega

/-- C32. The bytes of any events, parsed at once by an environment that knows their identifiers and
kinds, give back exactly these events in order, with names, timestamps and values. -/
theorem C32_parse (env : Names) (evs : List Ev) (hg : ∀ e ∈ evs, e.Good env) :
    ∃ s, streamOf env.hdr evs = .ok s
      ∧ (Rx.new.parse env s none).evs = evs.map (Ev.seen env) ∧ (Rx.new.parse env s none).err = none
      ∧ (Rx.new.parse env s none).p.ready = false := by
  obtain ⟨s, hs⟩ := stream_ok env evs hg
  obtain ⟨k, h1, h2, h3, h4, h5, h6⟩ := drain_prefix env evs hg ⟨s, false, 0, 0⟩ rfl "" s hs List.prefix_rfl
  have hl := stream_length env evs hg s hs
  have hk : k = evs.length := by
    by_cases hlt : k < evs.length
    · exfalso
      have := h5 hlt
      dsimp only at this
      have hmono : ∀ (l : List Ev) (j : Nat), offset env.hdr l j ≤ offset env.hdr l l.length := by
        intro l
        induction l with
        | nil => intro j; simp [offset]
        | cons e r ih =>
          intro j
          cases j with
          | zero => simp [offset]
          | succ j => rw [offset_succ, List.length_cons, offset_succ]; have := ih j; omega
      have := hmono evs (k + 1)
      omega
    · omega
  subst hk
  have e1 : (Rx.new.parse env s none) = Rx.consume env ⟨s, false, 0, 0⟩ "" none := by
    simp only [Rx.parse, Rx.new, List.nil_append]
    rw [if_neg (by simp)]
  refine ⟨s, hs, by rw [e1, h2, List.take_length], by rw [e1, h3], ?_⟩
  rw [e1, h6]
  exact decide_eq_false (by have := hdr_size_pos env.hdr; dsimp only; omega)

/-! ### Cutting the stream -/

theorem new_stop (env : Names) : Rx.new.round env "" = .stop := by
  have := hdr_size_pos env.hdr
  have h : pop env.hdr.size [] = none := by unfold pop; rw [if_neg (by simp; omega)]
  unfold Rx.round Rx.new
  simp [h]

/-- If no call ends with a pending header, cutting does not matter. -/
theorem parseAll_eq (env : Names) (chunks : List Bytes) (p : Rx) (hp : p.ready = false) (hst : p.round env "" = .stop)
    (h : ∀ n, 1 ≤ n → n < chunks.length → (p.parse env (chunks.take n).flatten none).p.ready = false
      ∧ (p.parse env (chunks.take n).flatten none).err = none) :
    p.parseAll env (chunks.map (fun c => (c, none)))
      = ((p.parse env chunks.flatten none).p, (p.parse env chunks.flatten none).evs, (p.parse env chunks.flatten none).err) := by
  induction chunks generalizing p with
  | nil =>
    simp only [List.map_nil, Rx.parseAll, List.flatten_nil, Rx.parse, List.append_nil]
    rw [if_neg (by simp), consume_stop hst]
  | cons c rest ih =>
    cases rest with
    | nil =>
      simp only [List.map_cons, List.map_nil, Rx.parseAll, List.flatten_cons, List.flatten_nil, List.append_nil]
      cases (p.parse env c none).err <;> rfl
    | cons c2 rest =>
      have h1 := h 1 (Nat.le_refl _) (by simp)
      simp only [List.take_succ_cons, List.take_zero, List.flatten_cons, List.flatten_nil, List.append_nil] at h1
      -- appending more data
      have happ : ∀ d, (p.parse env (c ++ d) none).p = ((p.parse env c none).p.parse env d none).p
          ∧ (p.parse env (c ++ d) none).evs = (p.parse env c none).evs ++ ((p.parse env c none).p.parse env d none).evs
          ∧ (p.parse env (c ++ d) none).err = ((p.parse env c none).p.parse env d none).err := by
        intro d
        obtain ⟨r1, r2⟩ := h1
        simp only [Rx.parse] at r1 r2 ⊢
        rw [if_neg (by simp)] at r1 r2
        rw [if_neg (by simp), if_neg (by simp), if_neg (by simp)]
        have := drain_append env { p with buf := p.buf ++ c } "" d r2
        dsimp only at this
        rw [List.append_assoc] at this
        rw [this]
        obtain ⟨n1, n2, n3⟩ := consume_name env
          { (Rx.consume env { p with buf := p.buf ++ c } "" none).p with
            buf := (Rx.consume env { p with buf := p.buf ++ c } "" none).p.buf ++ d }
          (Rx.consume env { p with buf := p.buf ++ c } "" none).name "" r1 none
        dsimp only at n1 n2 n3 ⊢
        rw [n1, n2, n3]
        exact ⟨rfl, rfl, rfl⟩
      have hst' : (p.parse env c none).p.round env "" = .stop := by
        obtain ⟨r1, r2⟩ := h1
        simp only [Rx.parse] at r1 r2 ⊢
        rw [if_neg (by simp)] at r1 r2 ⊢
        have := drained env _ "" r2
        rw [round_name env _ _ "" r1] at this
        exact this
      have hih := ih (p.parse env c none).p h1.1 hst' (fun n hn1 hn2 => by
        have := h (n + 1) (by omega) (by simpa using hn2)
        rw [List.take_succ_cons, List.flatten_cons] at this
        obtain ⟨a1, -, a3⟩ := happ ((c2 :: rest).take n).flatten
        rw [a1, a3] at this
        exact this)
      obtain ⟨a1, a2, a3⟩ := happ (c2 :: rest).flatten
      rw [show (c :: c2 :: rest).flatten = c ++ (c2 :: rest).flatten from rfl]
      rw [List.map_cons]
      simp only [Rx.parseAll]
      rw [h1.2]
      dsimp only
      rw [hih, a1, a2, a3]

/-- C33, the part that holds: a stream of events may be cut anywhere but between the end of an
event's header and the end of its value: the calls then give the events one call would give.
Missing: the other cuts, for which see `C33_cut_in_value_fails`. -/
theorem C33_cut_partial (env : Names) (evs : List Ev) (hg : ∀ e ∈ evs, e.Good env) (s : Bytes)
    (hs : streamOf env.hdr evs = .ok s) (chunks : List Bytes) (hc : chunks.flatten = s)
    (hcut : ∀ n < chunks.length, ¬ ∃ k < evs.length, offset env.hdr evs k + env.hdr.size ≤ (chunks.take n).flatten.length
      ∧ (chunks.take n).flatten.length < offset env.hdr evs (k + 1)) :
    (Rx.new.parseAll env (chunks.map (fun c => (c, none)))).2 = (evs.map (Ev.seen env), none) := by
  rw [parseAll_eq env chunks Rx.new rfl (new_stop env)]
  · obtain ⟨s', h1, h2, h3, h4⟩ := C32_parse env evs hg
    rw [hs] at h1
    cases h1
    rw [hc, h2, h3]
  · intro n h1 h2
    have hpre : (chunks.take n).flatten <+: s := by
      rw [← hc]
      exact ⟨(chunks.drop n).flatten, by rw [← List.flatten_append, List.take_append_drop]⟩
    obtain ⟨k, k1, -, k3, k4, k5, k6⟩ := drain_prefix env evs hg ⟨(chunks.take n).flatten, false, 0, 0⟩ rfl "" s hs hpre
    simp only [Rx.parse, Rx.new, List.nil_append]
    rw [if_neg (by simp)]
    refine ⟨?_, k3⟩
    rw [k6]
    dsimp only at k4 k5 ⊢
    refine decide_eq_false (fun hle => ?_)
    have hk : k < evs.length := by
      by_cases hk : k < evs.length
      · exact hk
      · exfalso
        have : k = evs.length := by omega
        subst this
        have hl := stream_length env evs hg s hs
        have := hpre.length_le
        have := hdr_size_pos env.hdr
        omega
    exact hcut n h2 ⟨k, hk, hle, k5 hk⟩

/-- With a pending header and no local name, nothing is ever read again. -/
theorem stuck (env : Names) (hempty : env.kindOf "" = none) (p : Rx) (hp : p.ready = true) (ds : List (Bytes × Option Nat)) :
    (p.parseAll env ds).2 = ([], none) := by
  induction ds generalizing p with
  | nil => rfl
  | cons d rest ih =>
    obtain ⟨d, l⟩ := d
    have hd : (p.parse env d l).err = none ∧ (p.parse env d l).evs = [] ∧ (p.parse env d l).p.ready = true := by
      simp only [Rx.parse]
      split
      · exact ⟨rfl, rfl, hp⟩
      · have : Rx.round env { p with buf := p.buf ++ d } "" = .stop := by
          unfold Rx.round; simp [hp, hempty]
        rw [consume_stop this]
        exact ⟨rfl, rfl, hp⟩
    simp only [Rx.parseAll]
    rw [hd.1]
    dsimp only
    have := ih _ hd.2.2
    rw [hd.2.1, List.nil_append]
    exact this

/-- C33, what the code does at the other cuts: if a call ends between the end of the header and the
end of the value of event `k`, then only the first `k` events are ever given, whatever is
delivered afterwards. -/
theorem C33_cut_in_value_fails (env : Names) (hempty : env.kindOf "" = none) (evs : List Ev) (hg : ∀ e ∈ evs, e.Good env)
    (s : Bytes) (hs : streamOf env.hdr evs = .ok s) (c : Bytes) (hc : c <+: s) (k : Nat) (hk : k < evs.length)
    (h1 : offset env.hdr evs k + env.hdr.size ≤ c.length) (h2 : c.length < offset env.hdr evs (k + 1)) (later : List (Bytes × Option Nat)) :
    (Rx.new.parseAll env ((c, none) :: later)).2 = ((evs.take k).map (Ev.seen env), none) := by
  obtain ⟨j, j1, j2, j3, j4, j5, j6⟩ := drain_prefix env evs hg ⟨c, false, 0, 0⟩ rfl "" s hs hc
  dsimp only at j4 j5 j6
  have hmono : ∀ (l : List Ev) (a b : Nat), a ≤ b → offset env.hdr l a ≤ offset env.hdr l b := by
    intro l
    induction l with
    | nil => intro a b _; simp [offset]
    | cons e r ih =>
      intro a b hab
      cases a with
      | zero => simp [offset]
      | succ a =>
        cases b with
        | zero => omega
        | succ b => rw [offset_succ, offset_succ]; have := ih a b (by omega); omega
  have hjk : j = k := by
    rcases Nat.lt_trichotomy j k with h | h | h
    · have := j5 (by omega)
      have := hmono evs (j + 1) k (by omega)
      omega
    · exact h
    · have := hmono evs (k + 1) j (by omega)
      omega
  subst hjk
  have e1 : (Rx.new.parse env c none) = Rx.consume env ⟨c, false, 0, 0⟩ "" none := by
    simp only [Rx.parse, Rx.new, List.nil_append]
    rw [if_neg (by simp)]
  simp only [Rx.parseAll]
  rw [e1, j3]
  dsimp only
  have hready : (Rx.consume env ⟨c, false, 0, 0⟩ "" none).p.ready = true := by rw [j6]; exact decide_eq_true h1
  have := stuck env hempty _ hready later
  rw [j2]
  rw [show (Rx.parseAll env (Rx.consume env ⟨c, false, 0, 0⟩ "" none).p later).2.1 = [] by rw [this],
    show (Rx.parseAll env (Rx.consume env ⟨c, false, 0, 0⟩ "" none).p later).2.2 = none by rw [this]]
  simp

/-- C33. The same happens to a consumer that stops after an event: it never gets another one. -/
theorem C33_abandoned_fails (env : Names) (hempty : env.kindOf "" = none) (e : Ev) (he : e.Good env) (b : Bytes)
    (hb : e.bytes env.hdr = .ok b) (more : Bytes) (later : List (Bytes × Option Nat)) :
    (Rx.new.parseAll env ((b ++ more, some 1) :: later)).2 = ([e.seen env], none) := by
  obtain ⟨x, y, hxy, hx, hy, d1, d2, d3⟩ := bytes_spec he
  obtain ⟨m, hm, hk⟩ := he.named
  rw [hxy] at hb
  cases hb
  have hgo := round_header env ⟨x ++ y ++ more, false, 0, 0⟩ "" rfl x (y ++ more) e.ident e.ts hx d1 d2 (by simp) m hm
  have hy2 := round_payload env m e.ident e.ts y more e.kind e.val hk hy d3
  have e1 : (Rx.new.parse env (x ++ y ++ more) (some 1)) = ⟨⟨more, true, e.ident, e.ts⟩, m, [⟨m, e.ts, e.val⟩], none⟩ := by
    simp only [Rx.parse, Rx.new, List.nil_append]
    rw [if_neg (by simp), consume_go hgo, consume_yield_one hy2]
  simp only [Rx.parseAll]
  rw [e1]
  dsimp only
  have := stuck env hempty ⟨more, true, e.ident, e.ts⟩ rfl later
  rw [show (Rx.parseAll env ⟨more, true, e.ident, e.ts⟩ later).2.1 = [] by rw [this],
    show (Rx.parseAll env ⟨more, true, e.ident, e.ts⟩ later).2.2 = none by rw [this]]
  simp [Ev.seen, hm]

/-- An environment with a `uint8` channel 1 and a `double` channel 2. -/
def sampleNames : Names where
  hdr := .std
  nameOf i := if i = 1 then some "a" else if i = 2 then some "b" else none
  kindOf n := if n = "a" then some (.int .uint8) else if n = "b" then some .double else none

def sampleEvs : List Ev := [⟨1, 1000, .int .uint8, .int 200⟩, ⟨2, 1500, .double, .f64 0x3ff0000000000000⟩,
  ⟨1, 2000, .int .uint8, .int 0⟩]

theorem sample_good : ∀ e ∈ sampleEvs, e.Good sampleNames := by
  intro e he
  simp only [sampleEvs, List.mem_cons, List.not_mem_nil, or_false] at he
  rcases he with rfl | rfl | rfl
  · exact ⟨by decide, by decide, by decide, ⟨"a", rfl, rfl⟩⟩
  · exact ⟨by decide, by decide, by decide, ⟨"b", rfl, rfl⟩⟩
  · exact ⟨by decide, by decide, by decide, ⟨"a", rfl, rfl⟩⟩

/-- The hypotheses of the cutting theorems are met: 11 + 18 + 11 bytes, cut at 5, 11 and 25 (inside
headers, and between two events); and cut at 10 (before the value of the first). -/
example : streamOf .std sampleEvs = .ok [0, 1, 0, 0, 0, 0, 0, 0, 3, 232, 200, 0, 2, 0, 0, 0, 0, 0, 0, 5, 220, 63, 240, 0, 0, 0, 0,
      0, 0, 0, 1, 0, 0, 0, 0, 0, 0, 7, 208, 0]
    ∧ sampleNames.kindOf "" = none ∧ offset .std sampleEvs 0 + 10 ≤ 10 ∧ 10 < offset .std sampleEvs 1 := by decide +kernel

example : ∀ n < [0, 5, 11, 15].length, ¬ ∃ k < sampleEvs.length,
    offset .std sampleEvs k + 10 ≤ [0, 5, 11, 15].getD n 0 ∧ [0, 5, 11, 15].getD n 0 < offset .std sampleEvs (k + 1) := by decide

end Verif.Event
