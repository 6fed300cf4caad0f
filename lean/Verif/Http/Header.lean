import Verif.Http.Processor
import Verif.Http.Target
import Verif.Dict
/-!
C43: request and response headers (net/http/common.py, header.py, response.py, version.py) and the
complete path `_send` → bytes → `HttpMessageProcessor` → header and body.
-/
namespace Verif.Http
open Verif.Text

/-! ### Header fields -/

/-- `HeadersMixin.headers`: a dictionary in insertion order. -/
abbrev Fields := List (List Char × List Char)

/-- `__setitem__`, common.py 42–44. -/
def Fields.set (f : Fields) (k v : List Char) : Fields := dset f (lower k) (strip v)

/-- `HeadersMixin.__init__`, common.py 29–37: one line per field; without a colon unpacking raises. -/
def Fields.parse : Fields → List (List Char) → Except PyErr Fields
  | f, [] => .ok f
  | f, l :: ls =>
    match cut ':' l with
    | (_, none) => .error .value
    | (k, some v) => Fields.parse (f.set k v) ls

/-- The lines of `write_field_lines`, common.py 55–60. -/
def Fields.lines (f : Fields) : List (List Char) := f.map (fun p => p.1 ++ ':' :: ' ' :: p.2)

/-- `content_length`, common.py 50–53. -/
def Fields.contentLength (f : Fields) : Except PyErr Int :=
  pyInt ((dget f "content-length".toList).getD "0".toList)

/-- Legal field names and values: ASCII, no line ends, no colon in a name. -/
def LegalName (k : List Char) : Prop := ∀ c ∈ k, c.val.toNat < 128 ∧ c ≠ '\r' ∧ c ≠ '\n' ∧ c ≠ ':'

/-- See `LegalName`. -/
def LegalText (v : List Char) : Prop := ∀ c ∈ v, c.val.toNat < 128 ∧ c ≠ '\r' ∧ c ≠ '\n'

/-- Dictionaries reached by setting legal fields. -/
inductive Fields.Built : Fields → Prop
  | empty : Fields.Built []
  | set (f : Fields) (k v : List Char) : Fields.Built f → LegalName k → LegalText v → Fields.Built (f.set k v)

/-! ### Versions -/

/-- `str(n)` for an integer. -/
def showInt (n : Int) : List Char := if n < 0 then '-' :: showNat n.natAbs else showNat n.natAbs

/-- `HttpVersion`, version.py. -/
structure Version where
  major : Int
  minor : Int
  deriving DecidableEq

/-- `version_str`, version.py 29–34. -/
def Version.text (v : Version) : List Char := "HTTP/".toList ++ showInt v.major ++ '.' :: showInt v.minor

/-- `HttpVersion.__init__`, version.py 12–19. -/
def Version.parse (s : List Char) : Except PyErr Version :=
  match splitOn '/' s with
  | [h, v] =>
    if h = "HTTP".toList then
      match splitOn '.' v with
      | [a, b] => do
        let x ← pyInt a
        let y ← pyInt b
        return ⟨x, y⟩
      | _ => .error .value
    else .error .assertion
  | _ => .error .value

/-! ### Requests -/

/-- `RequestHeader`, header.py 28–43. -/
structure Request where
  method : Method
  target : Target
  version : Version
  headers : Fields
  deriving DecidableEq

/-- `request_line`, header.py 74–77. -/
def Request.line (r : Request) : List Char :=
  r.method.name ++ ' ' :: (r.target.raw ++ ' ' :: r.version.text)

/-- `__str__`, header.py 79–88. -/
def Request.text (r : Request) : List Char :=
  r.line ++ ['\r', '\n'] ++ (r.headers.lines.map (· ++ ['\r', '\n'])).flatten ++ ['\r', '\n']

/-- `from_lines`, header.py 45–55. -/
def Request.parse (lines : List (List Char)) : Except PyErr Request :=
  match lines with
  | [] => .error .assertion
  | l :: ls =>
    match splitOn ' ' l with
    | [m, t, v] => do
      let m ← Method.ofName m
      let t ← Target.make m t
      let v ← Version.parse v
      let f ← Fields.parse [] ls
      return ⟨m, t, v, f⟩
    | _ => .error .value

/-- Requests as a language of headers. -/
def requests : Lang Request := ⟨Request.parse, fun r => r.headers.contentLength⟩

/-! ### Responses -/

/-- `ResponseHeader`, response.py 22–39. -/
structure Response where
  version : Version
  status : Int
  reason : List Char
  headers : Fields
  deriving DecidableEq

/-- `status_line`, response.py 55–62. -/
def Response.line (r : Response) : List Char :=
  r.version.text ++ ' ' :: (showInt r.status ++ if r.reason = [] then [] else ' ' :: r.reason)

/-- `__str__`, response.py 64–73. -/
def Response.text (r : Response) : List Char :=
  r.line ++ ['\r', '\n'] ++ (r.headers.lines.map (· ++ ['\r', '\n'])).flatten ++ ['\r', '\n']

/-- `from_lines`, response.py 41–53, on a new header (whose reason is empty); `known` is membership in
`http.HTTPStatus`. -/
def Response.parse (known : Int → Bool) (lines : List (List Char)) : Except PyErr Response :=
  match lines with
  | [] => .error .assertion
  | l :: ls =>
    match cut ' ' l with
    | (v, none) => do
      let _ ← Version.parse v
      .error .index
    | (v, some rest) => do
      let v ← Version.parse v
      let n ← pyInt (cut ' ' rest).1
      if known n then
        let f ← Fields.parse [] ls
        return ⟨v, n, (cut ' ' rest).2.getD [], f⟩
      else .error .value

/-- Responses as a language of headers. -/
def responses (known : Int → Bool) : Lang Response :=
  ⟨Response.parse known, fun r => r.headers.contentLength⟩

/-- The body as the writer of `_send` passes it on: empty data is not sent. -/
def sendLength (data : Option Bytes) : List Char :=
  match data with
  | none => "0".toList
  | some d => if d = [] then "0".toList else showNat d.length

/-- `_send`, net/tcp/http/__init__.py 156–172: the length is set, header and data are written. -/
def Request.send (r : Request) (data : Option Bytes) : Request × Bytes :=
  let r' := { r with headers := r.headers.set "content-length".toList (sendLength data) }
  (r', utf8 r'.text ++ data.getD [])

/-- `_send` of a response. -/
def Response.send (r : Response) (data : Option Bytes) : Response × Bytes :=
  let r' := { r with headers := r.headers.set "content-length".toList (sendLength data) }
  (r', utf8 r'.text ++ data.getD [])

/-! ### Lemmas -/

theorem toLower_ascii {c : Char} (h : c.val.toNat < 128) :
    c.toLower.val.toNat < 128 ∧ (c.toLower = '\r' → c = '\r') ∧ (c.toLower = '\n' → c = '\n') ∧
      (c.toLower = ':' → c = ':') := by
  have key : ∀ n : Fin 128, (Char.ofNat n.val).toLower.val.toNat < 128 ∧
      ((Char.ofNat n.val).toLower = '\r' → Char.ofNat n.val = '\r') ∧
      ((Char.ofNat n.val).toLower = '\n' → Char.ofNat n.val = '\n') ∧
      ((Char.ofNat n.val).toLower = ':' → Char.ofNat n.val = ':') := by decide +kernel
  have := key ⟨c.toNat, h⟩
  rw [Char.ofNat_toNat] at this
  exact this

theorem legalName_lower {k : List Char} (h : LegalName k) : LegalName (lower k) := by
  intro c hc
  obtain ⟨d, hd, rfl⟩ := List.mem_map.mp hc
  obtain ⟨h1, h2, h3, h4⟩ := h d hd
  obtain ⟨g1, g2, g3, g4⟩ := toLower_ascii h1
  exact ⟨g1, fun e => h2 (g2 e), fun e => h3 (g3 e), fun e => h4 (g4 e)⟩

theorem legalText_strip {v : List Char} (h : LegalText v) : LegalText (strip v) :=
  fun c hc => h c (strip_mem hc)

/-- What holds of every dictionary of fields. -/
structure Fields.Ok (f : Fields) : Prop where
  nodup : (f.map Prod.fst).Nodup
  key : ∀ p ∈ f, LegalName p.1 ∧ lower p.1 = p.1
  value : ∀ p ∈ f, LegalText p.2 ∧ strip p.2 = p.2

theorem Fields.Ok.set {f : Fields} (h : f.Ok) {k v : List Char} (hk : LegalName k) (hv : LegalText v) :
    (f.set k v).Ok := by
  refine ⟨?_, ?_, ?_⟩
  · unfold Fields.set
    rw [dset_keys]
    split
    · exact h.nodup
    · rename_i hn
      rw [List.nodup_append]
      refine ⟨h.nodup, List.pairwise_singleton _ _, ?_⟩
      intro a ha b hb e
      rw [List.mem_singleton.mp hb] at e
      subst e
      apply hn
      rw [List.any_eq_true]
      obtain ⟨p, hp, hpk⟩ := List.mem_map.mp ha
      exact ⟨p, hp, by simp [hpk]⟩
  · intro p hp
    rcases mem_dset hp with hp | rfl
    · exact h.key p hp
    · exact ⟨legalName_lower hk, lower_lower k⟩
  · intro p hp
    rcases mem_dset hp with hp | rfl
    · exact h.value p hp
    · exact ⟨legalText_strip hv, strip_strip v⟩

theorem Fields.Built.ok {f : Fields} (h : f.Built) : f.Ok := by
  induction h with
  | empty => exact ⟨List.nodup_nil, by simp, by simp⟩
  | set f k v _ hk hv ih => exact ih.set hk hv

theorem parse_lines (e f : Fields) (h : f.Ok) (hn : ((e ++ f).map Prod.fst).Nodup) :
    Fields.parse e f.lines = .ok (e ++ f) := by
  induction f generalizing e with
  | nil => simp [Fields.lines, Fields.parse]
  | cons p ps ih =>
    obtain ⟨k, v⟩ := p
    have hk := h.key (k, v) List.mem_cons_self
    have hv := h.value (k, v) List.mem_cons_self
    have hps : Fields.Ok ps := by
      refine ⟨?_, fun p hp => h.key p (List.mem_cons_of_mem _ hp), fun p hp => h.value p (List.mem_cons_of_mem _ hp)⟩
      have := h.nodup
      rw [List.map_cons, List.nodup_cons] at this
      exact this.2
    have hc : ':' ∉ k := fun hm => (hk.1 ':' hm).2.2.2 rfl
    have hset : Fields.set e k (' ' :: v) = e ++ [(k, v)] := by
      unfold Fields.set
      rw [strip_space, hv.2, hk.2]
      apply dset_fresh
      rw [List.any_eq_false]
      intro q hq
      have : k ∉ e.map Prod.fst := by
        rw [List.map_append, List.nodup_append] at hn
        intro hm
        exact hn.2.2 k hm k (by simp) rfl
      intro hqk
      apply this
      exact List.mem_map.mpr ⟨q, hq, by simpa using hqk⟩
    show Fields.parse e ((k ++ ':' :: ' ' :: v) :: Fields.lines ps) = _
    rw [Fields.parse, cut_append ':' k _ hc]
    simp only
    rw [hset, ih (e ++ [(k, v)]) hps (by simpa using hn)]
    simp

theorem fields_roundtrip (f : Fields) (h : f.Ok) : Fields.parse [] f.lines = .ok f := by
  have := parse_lines [] f h (by simpa using h.nodup)
  simpa using this

theorem fields_good (f : Fields) (h : f.Ok) : ∀ l ∈ f.lines, GoodLine l := by
  intro l hl
  obtain ⟨p, hp, rfl⟩ := List.mem_map.mp hl
  refine ⟨by simp, ?_⟩
  intro c hc
  rcases List.mem_append.mp hc with hc | hc
  · have := (h.key p hp).1 c hc
    exact ⟨this.1, this.2.1, this.2.2.1⟩
  · rcases List.mem_cons.mp hc with rfl | hc
    · decide
    · rcases List.mem_cons.mp hc with rfl | hc
      · decide
      · exact (h.value p hp).1 c hc

theorem showInt_facts {n : Int} {c : Char} (h : c ∈ showInt n) :
    c ≠ ' ' ∧ c ≠ '.' ∧ c ≠ '/' ∧ c ≠ ':' ∧ c ≠ '\n' ∧ c ≠ '\r' ∧ c.val.toNat < 128 ∧ isSpace c = false := by
  have hd : ∀ m, c ∈ showNat m → c ≠ ' ' ∧ c ≠ '.' ∧ c ≠ '/' ∧ c ≠ ':' ∧ c ≠ '\n' ∧ c ≠ '\r' ∧ c.val.toNat < 128 ∧ isSpace c = false := by
    intro m hm
    obtain ⟨h0, -, -, h1, h2, h3, h4, h5, h6, h7⟩ := digit_facts (showNat_digit hm)
    exact ⟨h1, h2, h3, h4, h5, h6, h7, h0⟩
  unfold showInt at h
  split at h
  · rcases List.mem_cons.mp h with rfl | h
    · decide
    · exact hd _ h
  · exact hd _ h

theorem pyInt_showInt (n : Int) : pyInt (showInt n) = .ok n := by
  unfold showInt
  split
  · rename_i hn
    have hs : strip ('-' :: showNat n.natAbs) = '-' :: showNat n.natAbs := by
      have hall : ∀ c ∈ '-' :: showNat n.natAbs, isSpace c = false := by
        intro c hc
        rcases List.mem_cons.mp hc with rfl | hc
        · decide
        · exact (digit_facts (showNat_digit hc)).1
      exact strip_of_ends (fun c hc => hall c (List.mem_of_mem_head? hc)) (fun c hc => hall c (List.mem_of_getLast? hc))
    have hd : digits false (showNat n.natAbs) 0 = .ok n.natAbs := by
      rw [digits_spec _ (fun c hc => showNat_digit hc) _ _ (Or.inr (showNat_ne_nil _)), showNat,
        Nat.ofDigitChars_ten_toDigits]
    unfold pyInt
    rw [hs]
    simp only [hd, Except.map]
    show Except.ok (-(n.natAbs : Int)) = Except.ok n
    congr 1
    omega
  · rw [pyInt_showNat]
    congr 1
    omega

theorem version_roundtrip (v : Version) : Version.parse v.text = .ok v := by
  have h1 : '/' ∉ "HTTP".toList := by decide
  have h2 : '/' ∉ showInt v.major ++ '.' :: showInt v.minor := by
    intro h
    rcases List.mem_append.mp h with h | h
    · exact (showInt_facts h).2.2.1 rfl
    · rcases List.mem_cons.mp h with h | h
      · exact absurd h (by decide)
      · exact (showInt_facts h).2.2.1 rfl
  have h3 : '.' ∉ showInt v.major := fun h => (showInt_facts h).2.1 rfl
  have h4 : '.' ∉ showInt v.minor := fun h => (showInt_facts h).2.1 rfl
  have e : v.text = "HTTP".toList ++ '/' :: (showInt v.major ++ '.' :: showInt v.minor) := by
    simp [Version.text]
  unfold Version.parse
  rw [e, splitOn_append '/' _ _ h1, splitOn_none '/' _ h2]
  simp only [if_true]
  rw [splitOn_append '.' _ _ h3, splitOn_none '.' _ h4]
  simp only [pyInt_showInt]
  rfl

theorem version_chars {v : Version} {c : Char} (h : c ∈ v.text) :
    c ≠ ' ' ∧ c ≠ '\r' ∧ c ≠ '\n' ∧ c.val.toNat < 128 := by
  unfold Version.text at h
  rcases List.mem_append.mp h with h | h
  · rcases List.mem_append.mp h with h | h
    · have : ∀ c ∈ "HTTP/".toList, c ≠ ' ' ∧ c ≠ '\r' ∧ c ≠ '\n' ∧ c.val.toNat < 128 := by decide +kernel
      exact this c h
    · have := showInt_facts h
      exact ⟨this.1, this.2.2.2.2.2.1, this.2.2.2.2.1, this.2.2.2.2.2.2.1⟩
  · rcases List.mem_cons.mp h with rfl | h
    · decide
    · have := showInt_facts h
      exact ⟨this.1, this.2.2.2.2.2.1, this.2.2.2.2.1, this.2.2.2.2.2.2.1⟩

theorem method_chars {m : Method} {c : Char} (h : c ∈ m.name) :
    c ≠ ' ' ∧ c ≠ '\r' ∧ c ≠ '\n' ∧ c.val.toNat < 128 := by
  revert c
  cases m <;> decide +kernel

theorem ok_bind' {α β : Type} (x : α) (g : α → Except PyErr β) : (Except.ok x >>= g) = g x := rfl

/-! ### Round trips -/

/-- A request made by the constructors: any method, a target accepted for it (ASCII, without spaces or
line ends), any version, legal fields. -/
structure Request.Legal (r : Request) : Prop where
  target : Target.make r.method r.target.raw = .ok r.target
  raw : ∀ c ∈ r.target.raw, c.val.toNat < 128 ∧ c ≠ ' ' ∧ c ≠ '\r' ∧ c ≠ '\n'
  fields : r.headers.Built

theorem request_lines (r : Request) (h : r.Legal) : ∀ l ∈ r.line :: r.headers.lines, GoodLine l := by
  intro l hl
  rcases List.mem_cons.mp hl with rfl | hl
  · refine ⟨by simp [Request.line], ?_⟩
    intro c hc
    unfold Request.line at hc
    rcases List.mem_append.mp hc with hc | hc
    · have := method_chars hc; exact ⟨this.2.2.2, this.2.1, this.2.2.1⟩
    · rcases List.mem_cons.mp hc with rfl | hc
      · decide
      · rcases List.mem_append.mp hc with hc | hc
        · have := h.raw c hc; exact ⟨this.1, this.2.2.1, this.2.2.2⟩
        · rcases List.mem_cons.mp hc with rfl | hc
          · decide
          · have := version_chars hc; exact ⟨this.2.2.2, this.2.1, this.2.2.1⟩
  · exact fields_good _ h.fields.ok l hl

/-- C43. Parsing the lines of a printed request gives the request. -/
theorem C43_request_lines (r : Request) (h : r.Legal) :
    Request.parse (r.line :: r.headers.lines) = .ok r := by
  have h1 : ' ' ∉ r.method.name := fun hm => (method_chars hm).1 rfl
  have h2 : ' ' ∉ r.target.raw := fun hm => (h.raw _ hm).2.1 rfl
  have h3 : ' ' ∉ r.version.text := fun hm => (version_chars hm).1 rfl
  unfold Request.parse Request.line
  simp only
  rw [splitOn_append ' ' _ _ h1, splitOn_append ' ' _ _ h2, splitOn_none ' ' _ h3]
  simp only [ofName_name, version_roundtrip, fields_roundtrip _ h.fields.ok, ok_bind', h.target]
  rfl

/-- A response: any version, a known status, a legal reason (or none), legal fields. -/
structure Response.Legal (known : Int → Bool) (r : Response) : Prop where
  status : known r.status = true
  reason : LegalText r.reason
  fields : r.headers.Built

theorem response_lines (known : Int → Bool) (r : Response) (h : r.Legal known) :
    ∀ l ∈ r.line :: r.headers.lines, GoodLine l := by
  intro l hl
  rcases List.mem_cons.mp hl with rfl | hl
  · refine ⟨by simp [Response.line], ?_⟩
    intro c hc
    unfold Response.line at hc
    rcases List.mem_append.mp hc with hc | hc
    · have := version_chars hc; exact ⟨this.2.2.2, this.2.1, this.2.2.1⟩
    · rcases List.mem_cons.mp hc with rfl | hc
      · decide
      · rcases List.mem_append.mp hc with hc | hc
        · have := showInt_facts hc
          exact ⟨this.2.2.2.2.2.2.1, this.2.2.2.2.2.1, this.2.2.2.2.1⟩
        · split at hc
          · cases hc
          · rcases List.mem_cons.mp hc with rfl | hc
            · decide
            · exact h.reason c hc
  · exact fields_good _ h.fields.ok l hl

/-- C43. Parsing the lines of a printed response gives the response. -/
theorem C43_response_lines (known : Int → Bool) (r : Response) (h : r.Legal known) :
    Response.parse known (r.line :: r.headers.lines) = .ok r := by
  have h1 : ' ' ∉ r.version.text := fun hm => (version_chars hm).1 rfl
  have h2 : ' ' ∉ showInt r.status := fun hm => (showInt_facts hm).1 rfl
  obtain ⟨v, n, reason, f⟩ := r
  unfold Response.parse Response.line
  simp only at *
  rw [cut_append ' ' _ _ h1]
  simp only
  by_cases hr : reason = []
  · subst hr
    rw [if_pos rfl, List.append_nil, cut_none ' ' _ h2]
    simp only [version_roundtrip, pyInt_showInt, fields_roundtrip _ h.fields.ok, bind, Except.bind,
      pure, Except.pure, h.status, Option.getD_none, if_true]
  · rw [if_neg hr, cut_append ' ' _ _ h2]
    simp only [version_roundtrip, pyInt_showInt, fields_roundtrip _ h.fields.ok, bind, Except.bind,
      pure, Except.pure, h.status, Option.getD_some, if_true]

theorem contentLength_set (f : Fields) (data : Option Bytes) :
    (f.set "content-length".toList (sendLength data)).contentLength = .ok ((data.getD []).length : Int) := by
  have hl : lower "content-length".toList = "content-length".toList := by decide +kernel
  have h0 : pyInt "0".toList = .ok 0 := by decide +kernel
  have hs0 : strip "0".toList = "0".toList := by decide +kernel
  have hsn : ∀ n, strip (showNat n) = showNat n := by
    intro n
    apply strip_of_ends
    · intro c hc; exact (digit_facts (showNat_digit (List.mem_of_mem_head? hc))).1
    · intro c hc; exact (digit_facts (showNat_digit (List.mem_of_getLast? hc))).1
  unfold Fields.contentLength Fields.set
  rw [hl, dget_dset_self]
  simp only [Option.getD_some]
  unfold sendLength
  cases data with
  | none => simp only [Option.getD_none]; rw [hs0, h0]; rfl
  | some d =>
    simp only [Option.getD_some]
    by_cases hd : d = []
    · subst hd; simp only [if_true]; rw [hs0, h0]; rfl
    · rw [if_neg hd, hsn, pyInt_showNat]

theorem built_set (f : Fields) (hf : f.Built) (data : Option Bytes) :
    (f.set "content-length".toList (sendLength data)).Built := by
  refine .set _ _ _ hf ?_ ?_
  · unfold LegalName; decide +kernel
  · have hz : LegalText "0".toList := by unfold LegalText; decide +kernel
    unfold sendLength
    cases data with
    | none => exact hz
    | some d =>
      simp only
      split
      · exact hz
      · intro c hc
        obtain ⟨-, -, -, -, -, -, -, h5, h6, h7⟩ := digit_facts (showNat_digit hc)
        exact ⟨h7, h6, h5⟩

/-- The received body: `None` instead of no bytes. -/
def received (data : Option Bytes) : Option Bytes :=
  match data with
  | none => none
  | some d => if d = [] then none else some d

/-- A request as `_send` writes it. -/
def Request.wire (p : Request × Option Bytes) : Bytes := (p.1.send p.2).2

/-- C43. Requests sent one after another, with any bodies, and delivered in any pieces, are received as
they were sent: method, target, version, fields (with the content length) and body. -/
theorem C43_requests (rs : List (Request × Option Bytes)) (h : ∀ p ∈ rs, p.1.Legal) (chunks : List Bytes)
    (hc : chunks.flatten = (rs.map Request.wire).flatten) :
    Proc.new.ingestAll requests chunks =
      (Proc.new, rs.map (fun p => ((p.1.send p.2).1, received p.2)), none) := by
  let toM : Request × Option Bytes → Message Request := fun p =>
    ⟨(p.1.send p.2).1.line :: (p.1.send p.2).1.headers.lines, (p.1.send p.2).1, p.2.getD []⟩
  have hlegal : ∀ p ∈ rs, (p.1.send p.2).1.Legal := by
    intro p hp
    exact ⟨(h p hp).target, (h p hp).raw, built_set _ (h p hp).fields _⟩
  have hm : ∀ m ∈ rs.map toM, m.Legal requests := by
    intro m hm
    obtain ⟨p, hp, rfl⟩ := List.mem_map.mp hm
    exact ⟨request_lines _ (hlegal p hp), C43_request_lines _ (hlegal p hp), contentLength_set _ _⟩
  have hb : (rs.map toM).map Message.bytes = rs.map Request.wire := by
    rw [List.map_map]
    apply List.map_congr_left
    intro p _
    simp [Message.bytes, toM, Request.wire, Request.send, Request.text, headerText, Request.line]
  have := C42_messages requests (rs.map toM) hm chunks (by rw [hb]; exact hc)
  rw [this, List.map_map]
  congr 2
  apply List.map_congr_left
  intro p _
  obtain ⟨r, d⟩ := p
  cases d with
  | none => rfl
  | some d =>
    simp only [Function.comp, Message.content, toM, received, Option.getD_some]

/-- C42. Requests of another program that say nothing about their length have no body: what follows the header is the
next request, however the stream is cut. -/
theorem C42_bodiless (rs : List Request) (h : ∀ r ∈ rs, r.Legal)
    (hn : ∀ r ∈ rs, dget r.headers "content-length".toList = none) (chunks : List Bytes)
    (hc : chunks.flatten = (rs.map (fun r => utf8 r.text)).flatten) :
    Proc.new.ingestAll requests chunks = (Proc.new, rs.map (fun r => (r, none)), none) := by
  let toM : Request → Message Request := fun r => ⟨r.line :: r.headers.lines, r, []⟩
  have h0 : pyInt "0".toList = .ok 0 := by decide +kernel
  have hm : ∀ m ∈ rs.map toM, m.Legal requests := by
    intro m hm
    obtain ⟨r, hr, rfl⟩ := List.mem_map.mp hm
    refine ⟨request_lines _ (h r hr), C43_request_lines _ (h r hr), ?_⟩
    show r.headers.contentLength = _
    unfold Fields.contentLength
    rw [hn r hr]
    exact h0
  have hb : (rs.map toM).map Message.bytes = rs.map (fun r => utf8 r.text) := by
    rw [List.map_map]
    apply List.map_congr_left
    intro r _
    simp [Message.bytes, toM, Request.text, headerText, Request.line]
  have := C42_messages requests (rs.map toM) hm chunks (by rw [hb]; exact hc)
  rw [this, List.map_map]
  rfl

/-- A response as `_send` writes it. -/
def Response.wire (p : Response × Option Bytes) : Bytes := (p.1.send p.2).2

/-- C43. The same for responses: version, status, reason, fields and body. -/
theorem C43_responses (known : Int → Bool) (rs : List (Response × Option Bytes))
    (h : ∀ p ∈ rs, p.1.Legal known) (chunks : List Bytes)
    (hc : chunks.flatten = (rs.map Response.wire).flatten) :
    Proc.new.ingestAll (responses known) chunks =
      (Proc.new, rs.map (fun p => ((p.1.send p.2).1, received p.2)), none) := by
  let toM : Response × Option Bytes → Message Response := fun p =>
    ⟨(p.1.send p.2).1.line :: (p.1.send p.2).1.headers.lines, (p.1.send p.2).1, p.2.getD []⟩
  have hlegal : ∀ p ∈ rs, (p.1.send p.2).1.Legal known := by
    intro p hp
    exact ⟨(h p hp).status, (h p hp).reason, built_set _ (h p hp).fields _⟩
  have hm : ∀ m ∈ rs.map toM, m.Legal (responses known) := by
    intro m hm
    obtain ⟨p, hp, rfl⟩ := List.mem_map.mp hm
    exact ⟨response_lines known _ (hlegal p hp), C43_response_lines known _ (hlegal p hp), contentLength_set _ _⟩
  have hb : (rs.map toM).map Message.bytes = rs.map Response.wire := by
    rw [List.map_map]
    apply List.map_congr_left
    intro p _
    simp [Message.bytes, toM, Response.wire, Response.send, Response.text, headerText, Response.line]
  have := C42_messages (responses known) (rs.map toM) hm chunks (by rw [hb]; exact hc)
  rw [this, List.map_map]
  congr 2
  apply List.map_congr_left
  intro p _
  obtain ⟨r, d⟩ := p
  cases d with
  | none => rfl
  | some d =>
    simp only [Function.comp, Message.content, toM, received, Option.getD_some]

/-! ### Where it fails -/

theorem parse_append_error (e : Fields) (a b : List (List Char)) (x : PyErr) (h : Fields.parse e a = .error x) :
    Fields.parse e (a ++ b) = .error x := by
  induction a generalizing e with
  | nil => cases h
  | cons l ls ih =>
    rw [List.cons_append, Fields.parse]
    rw [Fields.parse] at h
    cases hc : cut ':' l with
    | mk k v =>
      rw [hc] at h
      cases v with
      | none => exact h
      | some v => exact ih _ h

/-- C42. The same for responses: without a length there is no body. -/
theorem C42_bodiless_responses (known : Int → Bool) (rs : List Response) (h : ∀ r ∈ rs, r.Legal known)
    (hn : ∀ r ∈ rs, dget r.headers "content-length".toList = none) (chunks : List Bytes)
    (hc : chunks.flatten = (rs.map (fun r => utf8 r.text)).flatten) :
    Proc.new.ingestAll (responses known) chunks = (Proc.new, rs.map (fun r => (r, none)), none) := by
  let toM : Response → Message Response := fun r => ⟨r.line :: r.headers.lines, r, []⟩
  have h0 : pyInt "0".toList = .ok 0 := by decide +kernel
  have hm : ∀ m ∈ rs.map toM, m.Legal (responses known) := by
    intro m hm
    obtain ⟨r, hr, rfl⟩ := List.mem_map.mp hm
    refine ⟨response_lines known _ (h r hr), C43_response_lines known _ (h r hr), ?_⟩
    show r.headers.contentLength = _
    unfold Fields.contentLength
    rw [hn r hr]
    exact h0
  have hb : (rs.map toM).map Message.bytes = rs.map (fun r => utf8 r.text) := by
    rw [List.map_map]
    apply List.map_congr_left
    intro r _
    simp [Message.bytes, toM, Response.text, headerText, Response.line]
  have := C42_messages (responses known) (rs.map toM) hm chunks (by rw [hb]; exact hc)
  rw [this, List.map_map]
  rfl

/-- The first part of a request's parser. -/
theorem request_parse_cons (l : List Char) :
    (∃ e, ∀ ls, Request.parse (l :: ls) = .error e) ∨
    (∃ g : Fields → Request, ∀ ls, Request.parse (l :: ls) = (Fields.parse [] ls).map g) := by
  by_cases hs : ∃ m t v, splitOn ' ' l = [m, t, v]
  · obtain ⟨m, t, v, hs⟩ := hs
    cases hm : Method.ofName m with
    | error e => exact Or.inl ⟨e, fun ls => by simp only [Request.parse, hs, hm]; rfl⟩
    | ok m' =>
      cases ht : Target.make m' t with
      | error e => exact Or.inl ⟨e, fun ls => by simp only [Request.parse, hs, hm, ok_bind', ht]; rfl⟩
      | ok t' =>
        cases hv : Version.parse v with
        | error e => exact Or.inl ⟨e, fun ls => by simp only [Request.parse, hs, hm, ok_bind', ht, hv]; rfl⟩
        | ok v' =>
          refine Or.inr ⟨fun f => ⟨m', t', v', f⟩, fun ls => ?_⟩
          simp only [Request.parse, hs, hm, ok_bind', ht, hv]
          cases Fields.parse [] ls <;> rfl
  · refine Or.inl ⟨.value, fun ls => ?_⟩
    unfold Request.parse
    simp only
    split
    · rename_i a b c h; exact absurd ⟨a, b, c, h⟩ hs
    · rfl

theorem request_parse_append (a b : List (List Char)) (x : PyErr) (hne : a ≠ []) (h : Request.parse a = .error x) :
    Request.parse (a ++ b) = .error x := by
  cases a with
  | nil => exact absurd rfl hne
  | cons l ls =>
    rw [List.cons_append]
    rcases request_parse_cons l with ⟨e, he⟩ | ⟨g, hg⟩
    · rw [he] at h ⊢; exact h
    · rw [hg] at h ⊢
      cases hf : Fields.parse [] ls with
      | ok f => rw [hf] at h; cases h
      | error e =>
        rw [hf] at h
        rw [parse_append_error _ _ _ _ hf]
        exact h

/-- C42 and C43 fail after one bad request: the connection's processor refuses every later request,
however well formed, with the same exception. -/
theorem C42_bad_request_fails (bad : List (List Char)) (hb : ∀ l ∈ bad, GoodLine l) (hne : bad ≠ []) (e : PyErr)
    (he : Request.parse bad = .error e) (r : Request) (hr : r.Legal) (data : Option Bytes) :
    let p := Proc.new.ingest requests (utf8 (headerText bad))
    p.2.2 = some e ∧ (p.1.ingest requests (r.send data).2).2 = ([], some e) := by
  let m : Message Request :=
    ⟨(r.send data).1.line :: (r.send data).1.headers.lines, (r.send data).1, data.getD []⟩
  have hl : (r.send data).1.Legal := ⟨hr.target, hr.raw, built_set _ hr.fields _⟩
  have hm : m.Legal requests := ⟨request_lines _ hl, C43_request_lines _ hl, contentLength_set _ _⟩
  have hbytes : m.bytes = (r.send data).2 := by
    simp [Message.bytes, m, Request.send, Request.text, headerText, Request.line]
  have := C42_poisoned_fails requests bad hb e he m hm e (request_parse_append _ _ _ hne he)
  rw [hbytes] at this
  exact ⟨this.1, this.2.2⟩

/-- Fields are not checked for line ends when set: a value holding one prints exactly like two fields,
so the receiver sees a field nobody set. -/
theorem C43_injection_fails (line k v k2 v2 : List Char) (rest : Fields) :
    Fields.lines ((k, v ++ '\r' :: '\n' :: (k2 ++ ':' :: ' ' :: v2)) :: rest) ≠
      Fields.lines ((k, v) :: (k2, v2) :: rest) ∧
    headerText (line :: Fields.lines ((k, v ++ '\r' :: '\n' :: (k2 ++ ':' :: ' ' :: v2)) :: rest)) =
      headerText (line :: Fields.lines ((k, v) :: (k2, v2) :: rest)) := by
  constructor
  · intro h
    have := congrArg List.length h
    simp [Fields.lines] at this
  · simp [Fields.lines, headerText]

theorem encodeChar_head_high {c : Char} (h : 128 ≤ c.val.toNat) :
    ∃ b bs, String.utf8EncodeChar c = b :: bs ∧ 128 ≤ b.toNat := by
  cases he : String.utf8EncodeChar c with
  | nil =>
    have := String.length_utf8EncodeChar c
    rw [he] at this
    have := c.utf8Size_pos
    simp at *
  | cons b bs =>
    refine ⟨b, bs, rfl, ?_⟩
    apply Classical.byContradiction
    intro hn
    have := ascii_of_mem_encodeChar (c := c) (b := b) (by rw [he]; exact List.mem_cons_self) (by omega)
    omega

/-- A header with any character outside ASCII is written but cannot be read: decoding one byte at a time
raises. -/
theorem C43_non_ascii_fails (known : Int → Bool) (v : Version) (n : Int) (a : List Char) (ha : LegalText a)
    (c : Char) (hc : 128 ≤ c.val.toNat) (b : List Char) (f : Fields) :
    (Proc.new.ingest (responses known) (utf8 (Response.text ⟨v, n, a ++ c :: b, f⟩))).2 = ([], some .unicode) := by
  have hne : a ++ c :: b ≠ [] := by simp
  have hl : LegalText (v.text ++ ' ' :: (showInt n ++ ' ' :: a)) := by
    intro d hd
    rcases List.mem_append.mp hd with hd | hd
    · have := version_chars hd; exact ⟨this.2.2.2, this.2.1, this.2.2.1⟩
    · rcases List.mem_cons.mp hd with rfl | hd
      · decide
      · rcases List.mem_append.mp hd with hd | hd
        · have := showInt_facts hd
          exact ⟨this.2.2.2.2.2.2.1, this.2.2.2.2.2.1, this.2.2.2.2.1⟩
        · rcases List.mem_cons.mp hd with rfl | hd
          · decide
          · exact ha d hd
  obtain ⟨x, xs, hx, hhigh⟩ := encodeChar_head_high hc
  obtain ⟨rest, hrest⟩ : ∃ rest, utf8 (Response.text ⟨v, n, a ++ c :: b, f⟩) =
      utf8 (v.text ++ ' ' :: (showInt n ++ ' ' :: a)) ++ x :: rest := by
    refine ⟨xs ++ utf8 (b ++ ['\r', '\n'] ++ (f.lines.map (· ++ ['\r', '\n'])).flatten ++ ['\r', '\n']), ?_⟩
    have e : Response.text ⟨v, n, a ++ c :: b, f⟩ = (v.text ++ ' ' :: (showInt n ++ ' ' :: a)) ++
        (c :: (b ++ ['\r', '\n'] ++ (f.lines.map (· ++ ['\r', '\n'])).flatten ++ ['\r', '\n'])) := by
      simp [Response.text, Response.line]
    rw [e, utf8_append]
    congr 1
    show utf8 (c :: _) = _
    unfold utf8
    rw [List.flatMap_cons, hx]
    rfl
  unfold Proc.ingest Proc.new
  simp only [List.nil_append]
  rw [hrest, consume_line _ _ hl]
  have : (⟨x :: rest, [], [] ++ (v.text ++ ' ' :: (showInt n ++ ' ' :: a)), none⟩ : Proc Response).round
      (responses known) = .raised .unicode ⟨rest, [], [] ++ (v.text ++ ' ' :: (showInt n ++ ' ' :: a)), none⟩ := by
    simp [Proc.round, hhigh]
  rw [consume_raised this]

/-- The hypotheses are met by a request with two fields and a body, delivered in three pieces. -/
example :
    let r : Request := ⟨.post, ⟨"/a?b".toList, .origin "/a".toList (some "b".toList)⟩, ⟨1, 1⟩,
      Fields.set [] "Host".toList " x ".toList⟩
    r.Legal ∧ (r.send (some [1, 2])).2 =
      utf8 "POST /a?b HTTP/1.1\r\nhost: x\r\ncontent-length: 2\r\n\r\n".toList ++ [1, 2] := by
  refine ⟨⟨by decide +kernel, by decide +kernel, .set _ _ _ .empty ?_ ?_⟩, by decide +kernel⟩
  · unfold LegalName; decide +kernel
  · unfold LegalText; decide +kernel

/-- A request without a length, as a browser sends it. -/
example :
    let r : Request := ⟨.get, ⟨"/a?b".toList, .origin "/a".toList (some "b".toList)⟩, ⟨1, 1⟩,
      Fields.set [] "Host".toList " x ".toList⟩
    r.Legal ∧ dget r.headers "content-length".toList = none ∧
      utf8 r.text = utf8 "GET /a?b HTTP/1.1\r\nhost: x\r\n\r\n".toList := by
  refine ⟨⟨by decide +kernel, by decide +kernel, .set _ _ _ .empty ?_ ?_⟩, by decide +kernel, by decide +kernel⟩
  · unfold LegalName; decide +kernel
  · unfold LegalText; decide +kernel

end Verif.Http
