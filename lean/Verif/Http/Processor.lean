import Verif.Ascii
/-!
C42: `HttpMessageProcessor` (net/http/__init__.py) and `HeaderProcessingState` (net/http/state.py).

The header type, its parser and its `content_length` are parameters here (`Lang`); they are made
concrete in `Header.lean`. `ingest` is a generator: a consumer may stop at a yield.
-/
namespace Verif.Http

/-- What a kind of header supplies: `from_lines` on a new header, and `content_length`. -/
structure Lang (H : Type) where
  parse : List (List Char) → Except PyErr H
  clen : H → Except PyErr Int

variable {H : Type}

/-- `HttpMessageProcessor`, __init__.py 21–29, with `HeaderProcessingState`, state.py 19–29. -/
structure Proc (H : Type) where
  buf : Bytes
  lines : List (List Char)
  line : List Char
  cur : Option H

/-- A new processor. -/
def Proc.new : Proc H := ⟨[], [], [], none⟩

/-- One round of the loops below. At a yield the state still holds the header. -/
inductive Round (H : Type) where
  | stop (q : Proc H)
  | go (q : Proc H)
  | yield (h : H) (payload : Option Bytes) (q : Proc H)
  | raised (e : PyErr) (q : Proc H)

/-- Reading the payload of the current header, __init__.py 45–58. -/
def payload (L : Lang H) (q : Proc H) (h : H) : Round H :=
  match L.clen h with
  | .error e => .raised e { q with cur := some h }
  | .ok n =>
    if n = 0 ∨ n ≤ q.buf.length then
      if 0 < n then .yield h (some (q.buf.take n.toNat)) { q with buf := q.buf.drop n.toNat, cur := some h }
      else .yield h none { q with cur := some h }
    else .stop { q with cur := some h }

/-- The body of the loop of `service`, state.py 41–58, for one byte, and what `ingest` does with its
outcome, __init__.py 37–45. A byte outside ASCII cannot be decoded on its own. If `from_lines` raises,
the collected lines are kept. -/
def Proc.round (L : Lang H) (p : Proc H) : Round H :=
  match p.cur with
  | some h => if p.buf = [] then .stop p else payload L p h
  | none =>
    match p.buf with
    | [] => .stop p
    | b :: rest =>
      if 128 ≤ b.toNat then .raised .unicode { p with buf := rest }
      else if b = 10 then
        if p.line = [] then
          match L.parse p.lines with
          | .error e => .raised e { p with buf := rest }
          | .ok h => payload L { p with buf := rest, lines := [] } h
        else .go { p with buf := rest, lines := p.lines ++ [p.line], line := [] }
      else if b = 13 then .go { p with buf := rest }
      else .go { p with buf := rest, line := p.line ++ [Char.ofNat b.toNat] }

/-- Decreases with every round. -/
def Proc.weight (p : Proc H) : Nat := 2 * p.buf.length + (if p.cur.isSome then 1 else 0)

theorem payload_go (L : Lang H) (q r : Proc H) (h : H) : payload L q h ≠ .go r := by
  unfold payload
  intro hh
  split at hh
  · cases hh
  · split at hh
    · split at hh <;> cases hh
    · cases hh

theorem payload_yield {L : Lang H} {q r : Proc H} {h h' : H} {m : Option Bytes}
    (hh : payload L q h = .yield h' m r) : r.buf.length ≤ q.buf.length := by
  unfold payload at hh
  split at hh
  · cases hh
  · split at hh
    · split at hh
      · cases hh; simp
      · cases hh; exact Nat.le_refl _
    · cases hh

theorem round_go {L : Lang H} {p q : Proc H} (h : p.round L = .go q) : q.weight < p.weight := by
  obtain ⟨buf, lines, line, cur⟩ := p
  unfold Proc.round at h
  cases cur with
  | some c =>
    simp only at h
    split at h
    · cases h
    · exact absurd h (payload_go _ _ _ _)
  | none =>
    cases buf with
    | nil => cases h
    | cons b rest =>
      simp only at h
      split at h
      · cases h
      · split at h
        · split at h
          · split at h
            · cases h
            · exact absurd h (payload_go _ _ _ _)
          · cases h; simp [Proc.weight]
        · split at h
          · cases h; simp [Proc.weight]
          · cases h; simp [Proc.weight]

theorem round_yield {L : Lang H} {p q : Proc H} {c : H} {m : Option Bytes}
    (h : p.round L = .yield c m q) : ({ q with cur := none } : Proc H).weight < p.weight := by
  obtain ⟨buf, lines, line, cur⟩ := p
  unfold Proc.round at h
  cases cur with
  | some c =>
    simp only at h
    split at h
    · cases h
    · have := payload_yield h
      simp [Proc.weight] at this ⊢
      omega
  | none =>
    cases buf with
    | nil => cases h
    | cons b rest =>
      simp only at h
      split at h
      · cases h
      · split at h
        · split at h
          · split at h
            · cases h
            · have := payload_yield h
              simp [Proc.weight] at this ⊢
              omega
          · cases h
        · split at h <;> cases h

/-- The generator, with a consumer that takes at most `limit` further messages. -/
def Proc.consume (L : Lang H) (p : Proc H) (limit : Option Nat) :
    Proc H × List (H × Option Bytes) × Option PyErr :=
  match _h : p.round L with
  | .stop q => (q, [], none)
  | .raised e q => (q, [], some e)
  | .go q => q.consume L limit
  | .yield c m q =>
    if limit = some 1 then (q, [(c, m)], none)
    else
      match Proc.consume L { q with cur := none } (limit.map (· - 1)) with
      | (r, ms, e) => (r, (c, m) :: ms, e)
termination_by p.weight
decreasing_by
  · exact round_go _h
  · exact round_yield _h

/-- `ingest(data)`, __init__.py 31–58, read to the end. -/
def Proc.ingest (L : Lang H) (p : Proc H) (data : Bytes) : Proc H × List (H × Option Bytes) × Option PyErr :=
  Proc.consume L { p with buf := p.buf ++ data } none

/-- `ingest(data)` by a consumer that stops at the `n`-th message (a handler raising, say). -/
def Proc.ingestUpTo (L : Lang H) (p : Proc H) (data : Bytes) (n : Nat) :
    Proc H × List (H × Option Bytes) × Option PyErr :=
  if n = 0 then (p, [], none) else Proc.consume L { p with buf := p.buf ++ data } (some n)

/-- Several deliveries, as long as nothing is raised. -/
def Proc.ingestAll (L : Lang H) (p : Proc H) : List Bytes → Proc H × List (H × Option Bytes) × Option PyErr
  | [] => (p, [], none)
  | d :: rest =>
    match p.ingest L d with
    | (q, ms, some e) => (q, ms, some e)
    | (q, ms, none) =>
      match q.ingestAll L rest with
      | (r, ms', e) => (r, ms ++ ms', e)

/-! ### Draining -/

theorem consume_stop {L : Lang H} {p q : Proc H} (h : p.round L = .stop q) (l : Option Nat) :
    p.consume L l = (q, [], none) := by
  unfold Proc.consume; split <;> simp_all

theorem consume_raised {L : Lang H} {p q : Proc H} {e : PyErr} (h : p.round L = .raised e q) (l : Option Nat) :
    p.consume L l = (q, [], some e) := by
  unfold Proc.consume; split <;> simp_all

theorem consume_go {L : Lang H} {p q : Proc H} (h : p.round L = .go q) (l : Option Nat) :
    p.consume L l = q.consume L l := by
  rw [Proc.consume.eq_def L p]
  split <;> simp_all

theorem consume_yield {L : Lang H} {p q : Proc H} {c : H} {m : Option Bytes}
    (h : p.round L = .yield c m q) :
    p.consume L none = ((Proc.consume L { q with cur := none } none).1,
      (c, m) :: (Proc.consume L { q with cur := none } none).2.1,
      (Proc.consume L { q with cur := none } none).2.2) := by
  rw [Proc.consume.eq_def L p]
  split <;> simp_all

theorem consume_yield_one {L : Lang H} {p q : Proc H} {c : H} {m : Option Bytes}
    (h : p.round L = .yield c m q) : p.consume L (some 1) = (q, [(c, m)], none) := by
  rw [Proc.consume.eq_def L p]
  split <;> simp_all

/-- More data behind what is buffered. -/
def Proc.more (p : Proc H) (d : Bytes) : Proc H := { p with buf := p.buf ++ d }

theorem payload_more (L : Lang H) (q : Proc H) (h : H) (d : Bytes) :
    match payload L q h with
    | .stop r => r = { q with cur := some h } ∧ ∃ n : Int, L.clen h = .ok n ∧ 0 < n
    | .go _ => False
    | .yield c m r => payload L (q.more d) h = .yield c m (r.more d)
    | .raised e r => payload L (q.more d) h = .raised e (r.more d) := by
  unfold payload
  cases hc : L.clen h with
  | error e => simp [Proc.more]
  | ok n =>
    simp only
    by_cases h1 : n = 0 ∨ n ≤ q.buf.length
    · rw [if_pos h1]
      have h2 : n = 0 ∨ n ≤ (q.more d).buf.length := by
        rcases h1 with h1 | h1
        · exact Or.inl h1
        · right; simp only [Proc.more, List.length_append]; push_cast; omega
      rw [if_pos h2]
      by_cases h3 : 0 < n
      · rw [if_pos h3]
        simp only [if_pos h3, Proc.more]
        have hle : n.toNat ≤ q.buf.length := by omega
        rw [List.take_append_of_le_length hle, List.drop_append_of_le_length hle]
      · rw [if_neg h3]
        simp only [if_neg h3, Proc.more]
    · rw [if_neg h1]
      exact ⟨rfl, n, rfl, by omega⟩

theorem payload_resume (L : Lang H) (q : Proc H) (h : H) (d : Bytes) (n : Int) (hn : L.clen h = .ok n)
    (hp : 0 < n) :
    ({ q with cur := some h, buf := q.buf ++ d } : Proc H).round L = payload L (q.more d) h := by
  unfold Proc.round
  simp only
  by_cases he : q.buf ++ d = []
  · rw [if_pos he]
    have hb : (q.more d).buf = [] := he
    unfold payload
    rw [hn]
    simp only
    rw [if_neg (by rw [hb]; simp; omega)]
    rfl
  · rw [if_neg he]
    unfold payload Proc.more
    rfl

/-- Draining with more data behind: finish a round, then go on. -/
theorem round_more (L : Lang H) (p : Proc H) (d : Bytes) :
    match p.round L with
    | .stop q => (p.more d).round L = (q.more d).round L
    | .go q => (p.more d).round L = .go (q.more d)
    | .yield c m q => (p.more d).round L = .yield c m (q.more d)
    | .raised e q => (p.more d).round L = .raised e (q.more d) := by
  obtain ⟨buf, lines, line, cur⟩ := p
  cases cur with
  | some c =>
    by_cases hb : buf = []
    · subst hb; simp [Proc.round]
    · have hb2 : buf ++ d ≠ [] := by simp [hb]
      have h1 : (⟨buf, lines, line, some c⟩ : Proc H).round L = payload L ⟨buf, lines, line, some c⟩ c := by
        simp [Proc.round, hb]
      have h2 : (Proc.more ⟨buf, lines, line, some c⟩ d : Proc H).round L =
          payload L (Proc.more ⟨buf, lines, line, some c⟩ d) c := by
        simp [Proc.round, Proc.more, hb]
      rw [h1, h2]
      have h3 := payload_more L ⟨buf, lines, line, some c⟩ c d
      cases hr : payload L ⟨buf, lines, line, some c⟩ c with
      | stop r =>
        rw [hr] at h3
        obtain ⟨rfl, n, hn, hp⟩ := h3
        exact (payload_resume L ⟨buf, lines, line, some c⟩ c d n hn hp).symm
      | go r => rw [hr] at h3; exact h3.elim
      | yield x m r => rw [hr] at h3; exact h3
      | raised e r => rw [hr] at h3; exact h3
  | none =>
    cases buf with
    | nil => simp [Proc.round]
    | cons b rest =>
      by_cases hend : ¬ 128 ≤ b.toNat ∧ b = 10 ∧ line = []
      · obtain ⟨h1, h2, h3⟩ := hend
        subst h2; subst h3
        cases hp : L.parse lines with
        | error e => simp [Proc.round, Proc.more, hp]
        | ok h =>
          have e1 : (⟨10 :: rest, lines, [], none⟩ : Proc H).round L = payload L ⟨rest, [], [], none⟩ h := by
            simp [Proc.round, hp]
          have e2 : (Proc.more ⟨10 :: rest, lines, [], none⟩ d : Proc H).round L =
              payload L (Proc.more ⟨rest, [], [], none⟩ d) h := by
            simp [Proc.round, Proc.more, hp]
          rw [e1, e2]
          have h4 := payload_more L ⟨rest, [], [], none⟩ h d
          cases hr : payload L ⟨rest, [], [], none⟩ h with
          | stop r =>
            rw [hr] at h4
            obtain ⟨rfl, n, hn, hp⟩ := h4
            exact (payload_resume L ⟨rest, [], [], none⟩ h d n hn hp).symm
          | go r => rw [hr] at h4; exact h4.elim
          | yield x m r => rw [hr] at h4; exact h4
          | raised e r => rw [hr] at h4; exact h4
      · simp only [Proc.round, Proc.more, List.cons_append]
        by_cases h1 : 128 ≤ b.toNat
        · simp only [if_pos h1]
        · simp only [if_neg h1]
          by_cases h2 : b = 10
          · have h3 : line ≠ [] := fun h3 => hend ⟨h1, h2, h3⟩
            simp only [if_pos h2, if_neg h3]
            exact if_neg h3
          · simp only [if_neg h2]
            by_cases h3 : b = 13
            · simp only [if_pos h3]
            · simp only [if_neg h3]

theorem consume_congr {L : Lang H} {p q : Proc H} (h : p.round L = q.round L) :
    p.consume L none = q.consume L none := by
  cases hr : q.round L with
  | stop r => rw [consume_stop hr, consume_stop (h.trans hr)]
  | raised e r => rw [consume_raised hr, consume_raised (h.trans hr)]
  | go r => rw [consume_go hr, consume_go (h.trans hr)]
  | yield c m r => rw [consume_yield hr, consume_yield (h.trans hr)]

/-- Draining a longer buffer is draining the first part and then the rest; an exception in the first
part ends both the same way. -/
theorem drain_more (L : Lang H) (p : Proc H) (d : Bytes) :
    match p.consume L none with
    | (q, ms, some e) => (p.more d).consume L none = (q.more d, ms, some e)
    | (q, ms, none) => (p.more d).consume L none =
        (((q.more d).consume L none).1, ms ++ ((q.more d).consume L none).2.1, ((q.more d).consume L none).2.2) := by
  have hm := round_more L p d
  cases hr : p.round L with
  | stop q =>
    rw [hr] at hm
    rw [consume_stop hr]
    simp only
    rw [consume_congr hm]
    simp
  | raised e q =>
    rw [hr] at hm
    rw [consume_raised hr]
    simp only
    rw [consume_raised hm]
  | go q =>
    rw [hr] at hm
    rw [consume_go hr, consume_go hm]
    exact drain_more L q d
  | yield c m q =>
    rw [hr] at hm
    rw [consume_yield hr, consume_yield hm]
    have ih := drain_more L { q with cur := none } d
    have e : ({ q.more d with cur := none } : Proc H) = ({ q with cur := none } : Proc H).more d := rfl
    rw [e]
    generalize hc : Proc.consume L { q with cur := none } none = r at ih
    obtain ⟨r1, r2, r3⟩ := r
    cases r3 with
    | some x => simp only at ih ⊢; rw [ih]
    | none => simp only at ih ⊢; rw [ih]; simp
termination_by p.weight
decreasing_by
  · exact round_go hr
  · exact round_yield hr

theorem payload_stop {L : Lang H} {q r : Proc H} {h : H} (hr : payload L q h = .stop r) :
    r.round L = .stop r := by
  have h3 := payload_more L q h []
  rw [hr] at h3
  obtain ⟨rfl, n, hn, hp⟩ := h3
  have h4 := payload_resume L q h [] n hn hp
  rw [List.append_nil] at h4
  have h5 : q.more [] = q := by simp [Proc.more]
  rw [h4, h5, hr]

/-- Where it stops, it stays. -/
theorem round_stop {L : Lang H} {p q : Proc H} (h : p.round L = .stop q) : q.round L = .stop q := by
  obtain ⟨buf, lines, line, cur⟩ := p
  have h0 := h
  unfold Proc.round at h
  cases cur with
  | some c =>
    simp only at h
    split at h
    · cases h; exact h0
    · exact payload_stop h
  | none =>
    cases buf with
    | nil => simp only at h; cases h; exact h0
    | cons b rest =>
      simp only at h
      split at h
      · cases h
      · split at h
        · split at h
          · split at h
            · cases h
            · exact payload_stop h
          · cases h
        · split at h <;> cases h

/-- After a complete `ingest` without exception nothing more can be read. -/
theorem drained (L : Lang H) (p : Proc H) (h : (p.consume L none).2.2 = none) :
    (p.consume L none).1.round L = .stop (p.consume L none).1 := by
  cases hr : p.round L with
  | stop q => rw [consume_stop hr]; exact round_stop hr
  | raised e q => rw [consume_raised hr] at h; cases h
  | go q => rw [consume_go hr] at h ⊢; exact drained L q h
  | yield c m q => rw [consume_yield hr] at h ⊢; exact drained L _ h
termination_by p.weight
decreasing_by
  · exact round_go hr
  · exact round_yield hr

/-- C42. For every byte stream, well formed or not, and every way to cut it: the messages (headers and
bodies) and the exception, if any, are those of the whole stream delivered at once; without an
exception the final state is the same too. -/
theorem C42_cut_independent (L : Lang H) (p : Proc H) (hp : p.round L = .stop p) (chunks : List Bytes) :
    (p.ingestAll L chunks).2 = (p.ingest L chunks.flatten).2 ∧
    ((p.ingest L chunks.flatten).2.2 = none → p.ingestAll L chunks = p.ingest L chunks.flatten) := by
  induction chunks generalizing p with
  | nil =>
    have e : p.ingest L [] = (p, [], none) := by
      unfold Proc.ingest
      rw [show ({ p with buf := p.buf ++ [] } : Proc H) = p by simp]
      exact consume_stop hp none
    simp [Proc.ingestAll, e]
  | cons c rest ih =>
    have hd := drain_more L (p.more c) rest.flatten
    have hdr := drained L (p.more c)
    have e1 : p.ingest L c = (p.more c).consume L none := rfl
    have e2 : p.ingest L (c :: rest).flatten = ((p.more c).more rest.flatten).consume L none := by
      unfold Proc.ingest Proc.more
      rw [List.flatten_cons, List.append_assoc]
    rw [e2, Proc.ingestAll, e1]
    generalize hc : (p.more c).consume L none = r at hd hdr
    obtain ⟨q, ms, e⟩ := r
    cases e with
    | some e => simp only at hd ⊢; rw [hd]; simp
    | none =>
      simp only at hd ⊢
      have hq := hdr rfl
      obtain ⟨ih1, ih2⟩ := ih q hq
      have e3 : (q.more rest.flatten).consume L none = q.ingest L rest.flatten := rfl
      rw [hd, e3]
      generalize q.ingestAll L rest = a at ih1 ih2
      generalize q.ingest L rest.flatten = b at ih1 ih2
      obtain ⟨a1, a2, a3⟩ := a
      obtain ⟨b1, b2, b3⟩ := b
      simp only [Prod.mk.injEq] at ih1 ih2 ⊢
      refine ⟨⟨by rw [ih1.1], ih1.2⟩, fun hn => ?_⟩
      obtain ⟨h1, h2, h3⟩ := ih2 hn
      exact ⟨h1, by rw [h2], h3⟩

/-! ### Streams of messages -/

/-- A header line: ASCII, not empty, without line ends. -/
def GoodLine (l : List Char) : Prop :=
  l ≠ [] ∧ ∀ c ∈ l, c.val.toNat < 128 ∧ c ≠ '\r' ∧ c ≠ '\n'

/-- The header section made of lines: each with CR LF, then an empty one. -/
def headerText (lines : List (List Char)) : List Char :=
  (lines.map (· ++ ['\r', '\n'])).flatten ++ ['\r', '\n']

/-- A message on the wire. -/
structure Message (H : Type) where
  lines : List (List Char)
  header : H
  body : Bytes

/-- Its bytes. -/
def Message.bytes (m : Message H) : Bytes := utf8 (headerText m.lines) ++ m.body

/-- Legal messages: the lines parse to the header, whose content length is that of the body. -/
structure Message.Legal (L : Lang H) (m : Message H) : Prop where
  lines : ∀ l ∈ m.lines, GoodLine l
  parse : L.parse m.lines = .ok m.header
  clen : L.clen m.header = .ok m.body.length

/-- What a reader should get: the header and the body, `None` for an empty one. -/
def Message.content (m : Message H) : H × Option Bytes :=
  (m.header, if m.body = [] then none else some m.body)

theorem char_ofNat_roundtrip (c : Char) (h : c.val.toNat < 128) :
    Char.ofNat (UInt8.ofNat c.val.toNat).toNat = c := by
  rw [ofNat_toNat_lt (by omega)]
  exact Char.ofNat_toNat c

/-- Reading the characters of a line. -/
theorem consume_line (L : Lang H) (l : List Char) (h : ∀ c ∈ l, c.val.toNat < 128 ∧ c ≠ '\r' ∧ c ≠ '\n')
    (rest : Bytes) (ls : List (List Char)) (line : List Char) (lim : Option Nat) :
    Proc.consume L ⟨utf8 l ++ rest, ls, line, none⟩ lim = Proc.consume L ⟨rest, ls, line ++ l, none⟩ lim := by
  induction l generalizing line with
  | nil => simp [utf8]
  | cons c cs ih =>
    obtain ⟨hc, hr, hn⟩ := h c List.mem_cons_self
    have hu : utf8 (c :: cs) ++ rest = UInt8.ofNat c.val.toNat :: (utf8 cs ++ rest) := by
      unfold utf8
      rw [List.flatMap_cons, encodeChar_ascii hc]
      rfl
    have hb : (UInt8.ofNat c.val.toNat).toNat = c.val.toNat := ofNat_toNat_lt (by omega)
    have hn10 : UInt8.ofNat c.val.toNat ≠ 10 := by
      intro e
      have e2 := congrArg UInt8.toNat e
      rw [hb] at e2
      exact hn (Char.ext (UInt32.toNat_inj.mp (by rw [e2]; rfl)))
    have hn13 : UInt8.ofNat c.val.toNat ≠ 13 := by
      intro e
      have e2 := congrArg UInt8.toNat e
      rw [hb] at e2
      exact hr (Char.ext (UInt32.toNat_inj.mp (by rw [e2]; rfl)))
    have hround : (⟨utf8 (c :: cs) ++ rest, ls, line, none⟩ : Proc H).round L =
        .go ⟨utf8 cs ++ rest, ls, line ++ [c], none⟩ := by
      rw [hu]
      simp only [Proc.round]
      rw [if_neg (by rw [hb]; omega), if_neg hn10, if_neg hn13, char_ofNat_roundtrip c hc]
    rw [consume_go hround, ih (fun d hd => h d (List.mem_cons_of_mem _ hd))]
    simp

/-- Reading the lines of a header. -/
theorem consume_lines (L : Lang H) (lines : List (List Char)) (h : ∀ l ∈ lines, GoodLine l)
    (rest : Bytes) (ls : List (List Char)) (lim : Option Nat) :
    Proc.consume L ⟨utf8 ((lines.map (· ++ ['\r', '\n'])).flatten) ++ rest, ls, [], none⟩ lim =
      Proc.consume L ⟨rest, ls ++ lines, [], none⟩ lim := by
  induction lines generalizing ls with
  | nil => simp [utf8]
  | cons l lines ih =>
    have hl := h l List.mem_cons_self
    rw [List.map_cons, List.flatten_cons, utf8_append, utf8_append, List.append_assoc, List.append_assoc,
      consume_line L l hl.2]
    have hcr : utf8 ['\r', '\n'] = [13, 10] := rfl
    rw [hcr]
    have h1 : (⟨[13, 10] ++ (utf8 ((lines.map (· ++ ['\r', '\n'])).flatten) ++ rest), ls, [] ++ l, none⟩ : Proc H).round L =
        .go ⟨10 :: (utf8 ((lines.map (· ++ ['\r', '\n'])).flatten) ++ rest), ls, l, none⟩ := by
      simp [Proc.round]
    have h2 : (⟨10 :: (utf8 ((lines.map (· ++ ['\r', '\n'])).flatten) ++ rest), ls, l, none⟩ : Proc H).round L =
        .go ⟨utf8 ((lines.map (· ++ ['\r', '\n'])).flatten) ++ rest, ls ++ [l], [], none⟩ := by
      simp [Proc.round, hl.1]
    rw [consume_go h1, consume_go h2, ih (fun x hx => h x (List.mem_cons_of_mem _ hx))]
    simp

/-- Reading one message in front of others. -/
theorem consume_message (L : Lang H) (m : Message H) (hm : m.Legal L) (rest : Bytes) :
    Proc.consume L ⟨m.bytes ++ rest, [], [], none⟩ none =
      ((Proc.consume L ⟨rest, [], [], none⟩ none).1, m.content :: (Proc.consume L ⟨rest, [], [], none⟩ none).2.1,
        (Proc.consume L ⟨rest, [], [], none⟩ none).2.2) := by
  have hcr : utf8 ['\r', '\n'] = [13, 10] := rfl
  unfold Message.bytes headerText
  rw [utf8_append, List.append_assoc, List.append_assoc, consume_lines L m.lines hm.lines, hcr]
  have h1 : (⟨[13, 10] ++ (m.body ++ rest), [] ++ m.lines, [], none⟩ : Proc H).round L =
      .go ⟨10 :: (m.body ++ rest), m.lines, [], none⟩ := by
    simp [Proc.round]
  rw [consume_go h1]
  have h2 : ∃ q : Proc H, (⟨10 :: (m.body ++ rest), m.lines, [], none⟩ : Proc H).round L =
      .yield m.header (if m.body = [] then none else some m.body) q ∧
      ({ q with cur := none } : Proc H) = ⟨rest, [], [], none⟩ := by
    simp only [Proc.round, hm.parse, payload, hm.clen]
    by_cases hb : m.body = []
    · simp [hb]
    · have hlen : 0 < m.body.length := List.length_pos_iff.mpr hb
      have hle : (m.body.length : Int) = 0 ∨ (m.body.length : Int) ≤ ((m.body ++ rest).length : Int) := by
        right; rw [List.length_append]; push_cast; omega
      rw [if_pos hle]
      simp [hb, hlen]
  obtain ⟨q, hq, hq2⟩ := h2
  rw [consume_yield hq, hq2]
  rfl

/-- C42. A stream of legal messages yields exactly these messages, whatever the pieces in which it
arrives; nothing is left over. -/
theorem C42_messages (L : Lang H) (ms : List (Message H)) (hm : ∀ m ∈ ms, m.Legal L)
    (chunks : List Bytes) (hc : chunks.flatten = (ms.map Message.bytes).flatten) :
    Proc.new.ingestAll L chunks = (Proc.new, ms.map Message.content, none) := by
  have hall : Proc.consume L ⟨(ms.map Message.bytes).flatten, [], [], none⟩ none =
      (Proc.new, ms.map Message.content, none) := by
    clear hc
    induction ms with
    | nil => exact consume_stop (by simp [Proc.round, Proc.new]) none
    | cons m ms ih =>
      rw [List.map_cons, List.flatten_cons, consume_message L m (hm m List.mem_cons_self),
        ih (fun x hx => hm x (List.mem_cons_of_mem _ hx))]
      rfl
  have h0 : (Proc.new : Proc H).round L = .stop Proc.new := rfl
  have h1 := C42_cut_independent L Proc.new h0 chunks
  have h2 : (Proc.new : Proc H).ingest L chunks.flatten = (Proc.new, ms.map Message.content, none) := by
    rw [hc]; exact hall
  rw [h1.2 (by rw [h2]), h2]

/-! ### Where it fails -/

/-- After a header that does not parse, the collected lines stay: every later header is parsed
together with them. -/
theorem C42_poisoned_fails (L : Lang H) (bad : List (List Char)) (hb : ∀ l ∈ bad, GoodLine l) (e : PyErr)
    (he : L.parse bad = .error e) (m : Message H) (hm : m.Legal L) (e' : PyErr)
    (hbm : L.parse (bad ++ m.lines) = .error e') :
    let p := (Proc.new.ingest L (utf8 (headerText bad)))
    p.2.2 = some e ∧ p.2.1 = [] ∧ (p.1.ingest L m.bytes).2 = ([], some e') := by
  have hcr : utf8 ['\r', '\n'] = [13, 10] := rfl
  have h1 : (Proc.new : Proc H).ingest L (utf8 (headerText bad)) =
      (⟨[], bad, [], none⟩, [], some e) := by
    unfold Proc.ingest Proc.new headerText
    simp only [List.nil_append]
    rw [utf8_append, consume_lines L bad hb, hcr]
    have r1 : (⟨[13, 10], [] ++ bad, [], none⟩ : Proc H).round L = .go ⟨[10], bad, [], none⟩ := by
      simp [Proc.round]
    have r2 : (⟨[10], bad, [], none⟩ : Proc H).round L = .raised e ⟨[], bad, [], none⟩ := by
      simp [Proc.round, he]
    rw [consume_go r1, consume_raised r2]
  simp only [h1]
  refine ⟨trivial, trivial, ?_⟩
  unfold Proc.ingest Message.bytes headerText
  simp only [List.nil_append]
  rw [utf8_append, List.append_assoc, consume_lines L m.lines hm.lines, hcr]
  have r1 : (⟨[13, 10] ++ m.body, bad ++ m.lines, [], none⟩ : Proc H).round L =
      .go ⟨10 :: m.body, bad ++ m.lines, [], none⟩ := by
    simp [Proc.round]
  have r2 : (⟨10 :: m.body, bad ++ m.lines, [], none⟩ : Proc H).round L =
      .raised e' ⟨m.body, bad ++ m.lines, [], none⟩ := by
    simp [Proc.round, hbm]
  rw [consume_go r1, consume_raised r2]

/-- A header with a content length that cannot be read stays: whatever follows, each piece raises again and no message
is ever read from the connection. -/
theorem C42_length_fails (L : Lang H) (bad : List (List Char)) (hb : ∀ l ∈ bad, GoodLine l) (h : H)
    (hp : L.parse bad = .ok h) (e : PyErr) (he : L.clen h = .error e) (pieces : List Bytes) (hne : ∀ x ∈ pieces, x ≠ []) (d : Bytes) (hd : d ≠ []) :
    let p := Proc.new.ingest L (utf8 (headerText bad))
    p.2 = ([], some e) ∧
      ((pieces.foldl (fun q x => (q.ingest L x).1) p.1).ingest L d).2 = ([], some e) := by
  have hcr : utf8 ['\r', '\n'] = [13, 10] := rfl
  have h1 : (Proc.new : Proc H).ingest L (utf8 (headerText bad)) = (⟨[], [], [], some h⟩, [], some e) := by
    unfold Proc.ingest Proc.new headerText
    simp only [List.nil_append]
    rw [utf8_append, consume_lines L bad hb, hcr]
    have r1 : (⟨[13, 10], [] ++ bad, [], none⟩ : Proc H).round L = .go ⟨[10], bad, [], none⟩ := by
      simp [Proc.round]
    have r2 : (⟨[10], bad, [], none⟩ : Proc H).round L = .raised e ⟨[], [], [], some h⟩ := by
      simp [Proc.round, hp, payload, he]
    rw [consume_go r1, consume_raised r2]
  have step : ∀ (q : Proc H) (d : Bytes), q.cur = some h → d ≠ [] →
      (q.ingest L d).2 = ([], some e) ∧ (q.ingest L d).1.cur = some h := by
    intro q d hq hd
    have r : ({ q with buf := q.buf ++ d } : Proc H).round L = .raised e { q with buf := q.buf ++ d, cur := some h } := by
      simp [Proc.round, hq, hd, payload, he]
    unfold Proc.ingest
    rw [consume_raised r]
    exact ⟨rfl, rfl⟩
  simp only [h1]
  refine ⟨trivial, ?_⟩
  have all : ∀ (l : List Bytes) (q : Proc H), q.cur = some h → (∀ x ∈ l, x ≠ []) →
      (l.foldl (fun q x => (q.ingest L x).1) q).cur = some h := by
    intro l
    induction l with
    | nil => intro q hq _; exact hq
    | cons x l ih => intro q hq hx; exact ih _ (step q x hq (hx x (by simp))).2 (fun y hy => hx y (by simp [hy]))
  exact (step _ d (all _ _ rfl hne) hd).1

/-- A consumer that stops at a message (because handling it raised) is given that message's header
again with the next bytes, and no payload or the wrong one. -/
theorem C42_stopped_fails (L : Lang H) (m : Message H) (hm : m.Legal L) (hb : m.body = [])
    (data : Bytes) (hd : data ≠ []) :
    let p := Proc.new.ingestUpTo L m.bytes 1
    p.2.1 = [(m.header, none)] ∧
      ∃ ms, (p.1.ingest L data).2.1 = (m.header, none) :: ms := by
  have hcr : utf8 ['\r', '\n'] = [13, 10] := rfl
  have h1 : (Proc.new : Proc H).ingestUpTo L m.bytes 1 = (⟨[], [], [], some m.header⟩, [(m.header, none)], none) := by
    unfold Proc.ingestUpTo Proc.new Message.bytes headerText
    rw [if_neg (by decide), hb]
    simp only [List.nil_append, List.append_nil]
    rw [utf8_append, consume_lines L m.lines hm.lines, hcr]
    have r1 : (⟨[13, 10], [] ++ m.lines, [], none⟩ : Proc H).round L = .go ⟨[10], m.lines, [], none⟩ := by
      simp [Proc.round]
    have r2 : (⟨[10], m.lines, [], none⟩ : Proc H).round L =
        .yield m.header none ⟨[], [], [], some m.header⟩ := by
      simp [Proc.round, hm.parse, payload, hm.clen, hb]
    rw [consume_go r1, consume_yield_one r2]
  simp only [h1]
  refine ⟨trivial, ?_⟩
  have r : (⟨[] ++ data, [], [], some m.header⟩ : Proc H).round L =
      .yield m.header none ⟨data, [], [], some m.header⟩ := by
    simp [Proc.round, hd, payload, hm.clen, hb]
  unfold Proc.ingest
  simp only
  rw [consume_yield r]
  exact ⟨_, rfl⟩

end Verif.Http
