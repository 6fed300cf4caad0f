import Verif.Message.Framing
import Verif.Dict
import Batteries.Tactic.Init
/-!
C106: the browser's end of the JSON connection (data/js/JsonConnection.js): taking the messages of the server out of
what a websocket delivers, sending messages, and what is done with the keys of one message.

A websocket message is a list of bytes. What ECMAScript's `ArrayBuffer`, `DataView`, `in` and `for … in` do is
assumed; JSON texts and their values are kept abstract.
-/
namespace Verif.Json.Browser

open Verif.Wire Verif.Message

/-- `DataView.getUint32(0)`: most significant byte first, a `RangeError` (`none`) for fewer than four bytes. -/
def getUint32 : Bytes → Option Nat
  | a :: b :: c :: d :: _ => some (a.toNat * 16777216 + b.toNat * 65536 + c.toNat * 256 + d.toNat)
  | _ => none

/-- `DataView.setUint32(0, n)`: modulo 2 ^ 32. -/
def setUint32 (n : Nat) : Bytes :=
  [UInt8.ofNat (n / 16777216 % 256), UInt8.ofNat (n / 65536 % 256), UInt8.ofNat (n / 256 % 256), UInt8.ofNat (n % 256)]

/-- How a call of the event handler ends. -/
inductive Ended where
  | done
  | threw
  deriving DecidableEq, Repr

/-- `onmessage`, JsonConnection.js 79–91: the payloads handed to `handle_payload`, which may throw (`ok` says that it
does not). -/
def onmessage (ok : Bytes → Bool) (buffer : Bytes) : List Bytes × Ended :=
  if _h : 0 < buffer.length then
    match getUint32 buffer with
    | none => ([], .threw)
    | some length =>
      let rest := buffer.drop 4
      let payload := rest.take length
      if ok payload then
        ((payload :: (onmessage ok (rest.drop length)).1), (onmessage ok (rest.drop length)).2)
      else ([payload], .threw)
  else ([], .done)
termination_by buffer.length
decreasing_by all_goals simp only [List.length_drop]; omega

/-- `send_json`, 63–77, with the encoded text: the websocket message sent. -/
def sendJson (message : Bytes) : Bytes := setUint32 message.length ++ message

/-! ### Framing -/

theorem getUint32_setUint32 (n : Nat) (rest : Bytes) : getUint32 (setUint32 n ++ rest) = some (n % 4294967296) := by
  simp only [setUint32, getUint32, List.cons_append, Option.some.injEq, UInt8.toNat_ofNat']
  omega

theorem encode_of (p : Proc) (hk : p.kind = .uint32) (ho : p.order = .network) (m : Bytes) :
    p.encode m = .ok (sendJson m) := by
  have h0 : toPattern 4 (wrap .uint32 (m.length : Int)) = m.length % 4294967296 := by
    have h := wrap_emod .uint32 (m.length : Int)
    have h1 := toPattern_cast 4 (wrap .uint32 (m.length : Int))
    have h2 : (2 : Int) ^ (8 * 4) = 4294967296 := by decide
    have h3 : (2 : Int) ^ IntKind.uint32.bits = 4294967296 := by decide
    have h4 : (2 : Int) ^ (8 * IntKind.uint32.size) = 4294967296 := by decide
    rw [h2] at h1
    try rw [h3] at h
    try rw [h4] at h
    omega
  have h1 : digitsLE 4 (m.length % 4294967296) = (setUint32 m.length).reverse := by
    unfold setUint32
    simp only [digitsLE, List.reverse_cons, List.reverse_nil, List.nil_append, List.cons_append, List.cons.injEq, and_true]
    refine ⟨?_, ?_, ?_, ?_⟩ <;> congr 1 <;> omega
  have h2 : encodeInt .uint32 .network (wrap .uint32 (m.length : Int)) = .ok (setUint32 m.length) := by
    unfold encodeInt
    rw [if_pos (wrap_packable _ _)]
    have hs : IntKind.uint32.size = 4 := rfl
    rw [hs, h0, h1, arrange, List.reverse_reverse]
  unfold Proc.encode
  rw [hk, ho, h2, sendJson]

theorem encode_network (m : Bytes) : (Proc.new .uint32 .network).encode m = .ok (sendJson m) := encode_of _ rfl rfl m

/-- C106. What the browser sends for a text is byte for byte what the server's `encode` writes for it, whatever its
length. -/
theorem C106_sends (m : Bytes) : (Proc.new .uint32 defaultByteOrder).encode m = .ok (sendJson m) := encode_network m

/-- C106. Texts the browser sends arrive at the server exactly, one after another, however the bytes are delivered. -/
theorem C106_server_receives (msgs : List Bytes) (hm : ∀ m ∈ msgs, m.length < 2 ^ 32) (chunks : List Bytes)
    (hc : chunks.flatten = (msgs.map sendJson).flatten) :
    ((Proc.new .uint32 defaultByteOrder).deliverAll (chunks.map (fun c => (c, none)))).2 = (msgs, none) := by
  have hall : ∀ (p : Proc) (_ : p.kind = .uint32) (_ : p.order = .network) (ms : List Bytes),
      p.encodeAll ms = .ok (ms.map sendJson).flatten := by
    intro p hk ho ms
    induction ms with
    | nil => rfl
    | cons m rest ih => simp only [Proc.encodeAll, encode_of p hk ho, ih, List.map_cons, List.flatten_cons]
  obtain ⟨stream, h1, h2⟩ := C30_all_received .uint32 rfl .network msgs (fun m h => by
    have := hm m h
    have : Spec.hi .uint32 = 4294967295 := by decide
    omega)
  rw [hall _ rfl rfl msgs] at h1
  cases h1
  exact h2 chunks hc

theorem onmessage_nil (ok : Bytes → Bool) : onmessage ok [] = ([], .done) := by
  rw [onmessage]; simp

theorem onmessage_frame (ok : Bytes → Bool) (m rest : Bytes) (hm : m.length < 2 ^ 32) :
    onmessage ok (sendJson m ++ rest) =
      if ok m then (m :: (onmessage ok rest).1, (onmessage ok rest).2) else ([m], .threw) := by
  rw [onmessage]
  have hl : m.length % 4294967296 = m.length := by omega
  have hd : List.drop 4 (sendJson m ++ rest) = m ++ rest := rfl
  rw [dif_pos (by simp [sendJson, setUint32])]
  have hg : getUint32 (sendJson m ++ rest) = some m.length := by
    unfold sendJson; rw [List.append_assoc, getUint32_setUint32, hl]
  rw [hg]
  simp only [hd, List.take_left, List.drop_left]

/-- C106. A websocket message made of any number of the server's messages is taken apart into exactly these, in order,
if none of them makes a handler throw. -/
theorem C106_browser_receives (ok : Bytes → Bool) (msgs : List Bytes) (hm : ∀ m ∈ msgs, m.length < 2 ^ 32)
    (hok : ∀ m ∈ msgs, ok m = true) (buffer : Bytes)
    (he : (Proc.new .uint32 defaultByteOrder).encodeAll msgs = .ok buffer) :
    onmessage ok buffer = (msgs, .done) := by
  induction msgs generalizing buffer with
  | nil => cases he; exact onmessage_nil ok
  | cons m rest ih =>
    obtain ⟨b, bs, h1, h2, rfl⟩ := encodeAll_cons _ m rest buffer he
    rw [C106_sends] at h1
    cases h1
    rw [onmessage_frame ok m bs (hm m List.mem_cons_self), if_pos (hok m List.mem_cons_self),
      ih (fun x hx => hm x (List.mem_cons_of_mem _ hx)) (fun x hx => hok x (List.mem_cons_of_mem _ hx)) bs h2]

/-- C106 fails when a handler throws: the messages that follow in the same websocket message are never looked at. -/
theorem C106_throw_fails (ok : Bytes → Bool) (before : List Bytes) (m : Bytes) (after : List Bytes)
    (hm : ∀ x ∈ before ++ m :: after, x.length < 2 ^ 32) (hb : ∀ x ∈ before, ok x = true) (ht : ok m = false)
    (buffer : Bytes) (he : (Proc.new .uint32 defaultByteOrder).encodeAll (before ++ m :: after) = .ok buffer) :
    onmessage ok buffer = (before ++ [m], .threw) := by
  induction before generalizing buffer with
  | nil =>
    obtain ⟨b, bs, h1, h2, rfl⟩ := encodeAll_cons _ m after buffer he
    rw [C106_sends] at h1
    cases h1
    rw [onmessage_frame ok m bs (hm m List.mem_cons_self), ht]
    rfl
  | cons x rest ih =>
    obtain ⟨b, bs, h1, h2, rfl⟩ := encodeAll_cons _ x (rest ++ m :: after) buffer he
    rw [C106_sends] at h1
    cases h1
    rw [onmessage_frame ok x bs (hm x List.mem_cons_self), if_pos (hb x List.mem_cons_self),
      ih (fun y hy => hm y (List.mem_cons_of_mem _ hy)) (fun y hy => hb y (List.mem_cons_of_mem _ hy)) bs h2]
    rfl

/-- C106 needs whole messages: unlike the server, the browser keeps nothing between websocket messages. A message cut
in its prefix makes the handler throw; one cut later is handed over short. -/
theorem C106_cut_fails (ok : Bytes → Bool) (m : Bytes) (hm : m.length < 2 ^ 32) (k : Nat) (hk : k < 4 + m.length) :
    onmessage ok ((sendJson m).take k) =
      if k = 0 then ([], .done)
      else if k < 4 then ([], .threw)
      else ([m.take (k - 4)], if ok (m.take (k - 4)) then .done else .threw) := by
  by_cases h0 : k = 0
  · subst h0; rw [if_pos rfl]; simp only [List.take_zero]; exact onmessage_nil ok
  · rw [if_neg h0]
    by_cases h4 : k < 4
    · rw [if_pos h4, onmessage]
      have : k = 1 ∨ k = 2 ∨ k = 3 := by omega
      rcases this with rfl | rfl | rfl <;> rfl
    · rw [if_neg h4]
      obtain ⟨j, rfl⟩ : ∃ j, k = j + 4 := ⟨k - 4, by omega⟩
      have htk : (sendJson m).take (j + 4) = setUint32 m.length ++ m.take j := rfl
      rw [htk, onmessage, dif_pos (by simp [setUint32]), getUint32_setUint32]
      have hl : m.length % 4294967296 = m.length := by omega
      have hd : List.drop 4 (setUint32 m.length ++ m.take j) = m.take j := rfl
      have ht : (m.take j).take m.length = m.take j := by
        rw [List.take_of_length_le]; rw [List.length_take]; omega
      have hr : (m.take j).drop m.length = [] := by
        rw [List.drop_of_length_le]; rw [List.length_take]; omega
      simp only [hl, hd, ht, hr, onmessage_nil, Nat.add_sub_cancel]
      split <;> rfl

/-! ### The keys of one message -/

variable {K V : Type}

/-- Every object inherits twelve names from `Object.prototype`, so that `in` finds them in the empty table of handlers
too. Called with one argument, most of them do nothing; these three throw a `TypeError` (two expect a function as
second argument, the third is no function). JsonConnection.js 26, 50–51. -/
def uncallable : List (List Char) := ["__defineGetter__", "__defineSetter__", "__proto__"].map String.toList

/-- `forward_keys`, JsonConnection.js 5. -/
def forwardKeys : List (List Char) := ["__id__".toList, "loopback".toList]

/-- What `handle_json` does: handlers called with their values, and the object sent, if any. -/
structure Handled (V : Type) where
  calls : List (List Char × V)
  sent : Option (List (List Char × V))
  ended : Ended

/-- The response under construction, `handle_json` 40–47: an own property each, in the order of `forward_keys`. -/
def response (data : List (List Char × V)) : List (List Char × V) :=
  forwardKeys.filterMap (fun k => (dget data k).map (fun v => (k, v)))

/-- The loop over the keys, 49–56: registered handlers are called; they may throw. -/
def loop (handlers : List (List Char)) (throws : List Char → V → Bool) :
    List (List Char × V) → List (List Char × V) × Ended
  | [] => ([], .done)
  | (k, v) :: rest =>
    if k ∈ handlers then
      if throws k v then ([(k, v)], .threw)
      else ((k, v) :: (loop handlers throws rest).1, (loop handlers throws rest).2)
    else if k ∈ uncallable then ([], .threw)
    else loop handlers throws rest

/-- `handle_json`, 38–62. Calls of inherited functions have no effect and are not listed. -/
def handleJson (handlers : List (List Char)) (throws : List Char → V → Bool) (data : List (List Char × V)) : Handled V :=
  let r := loop handlers throws data
  match r.2 with
  | .threw => ⟨r.1, none, .threw⟩
  | .done => ⟨r.1, if response data = [] then none else some (response data), .done⟩

theorem loop_done (handlers : List (List Char)) (throws : List Char → V → Bool) (data : List (List Char × V))
    (ht : ∀ p ∈ data, p.1 ∈ handlers → throws p.1 p.2 = false) (hu : ∀ p ∈ data, p.1 ∉ handlers → p.1 ∉ uncallable) :
    loop handlers throws data = (data.filter (fun p => decide (p.1 ∈ handlers)), .done) := by
  induction data with
  | nil => rfl
  | cons p rest ih =>
    obtain ⟨k, v⟩ := p
    have ih' := ih (fun q hq => ht q (List.mem_cons_of_mem _ hq)) (fun q hq => hu q (List.mem_cons_of_mem _ hq))
    unfold loop
    by_cases hk : k ∈ handlers
    · rw [if_pos hk, if_neg (by rw [ht _ List.mem_cons_self hk]; simp), ih', List.filter_cons_of_pos (by simpa using hk)]
    · rw [if_neg hk, if_neg (hu _ List.mem_cons_self hk), ih', List.filter_cons_of_neg (by simpa using hk)]

theorem response_eq (data : List (List Char × V)) : response data =
    ((dget data "__id__".toList).map (fun v => ("__id__".toList, v))).toList ++
    ((dget data "loopback".toList).map (fun v => ("loopback".toList, v))).toList := by
  unfold response forwardKeys
  generalize "__id__".toList = a
  generalize "loopback".toList = b
  cases h : dget data a <;> cases h' : dget data b <;> simp [h, h']

/-- C106. Every key of a message that has a handler is handled once, in order, with its value; nothing else is; and
the browser answers exactly the messages with an identifier or a loopback, repeating these two and nothing else. -/
theorem C106_keys (handlers : List (List Char)) (throws : List Char → V → Bool) (data : List (List Char × V))
    (ht : ∀ p ∈ data, p.1 ∈ handlers → throws p.1 p.2 = false) (hu : ∀ p ∈ data, p.1 ∉ handlers → p.1 ∉ uncallable) :
    let r := handleJson handlers throws data
    r.ended = .done ∧ r.calls = data.filter (fun p => decide (p.1 ∈ handlers)) ∧
      (r.sent = none ↔ dget data "__id__".toList = none ∧ dget data "loopback".toList = none) ∧
      ∀ o, r.sent = some o → ∀ k, dget o k = if k = "__id__".toList ∨ k = "loopback".toList then dget data k else none := by
  have hl := loop_done handlers throws data ht hu
  have hr : handleJson handlers throws data =
      ⟨data.filter (fun p => decide (p.1 ∈ handlers)), if response data = [] then none else some (response data), .done⟩ := by
    unfold handleJson; rw [hl]
  simp only [hr]
  refine ⟨trivial, trivial, ?_, ?_⟩
  · rw [response_eq]
    generalize dget data "__id__".toList = x
    generalize dget data "loopback".toList = y
    cases x <;> cases y <;> simp
  · intro o ho k
    by_cases hn : response data = []
    · rw [if_pos hn] at ho; cases ho
    · rw [if_neg hn] at ho
      cases ho
      rw [response_eq]
      have hne : "__id__".toList ≠ "loopback".toList := by decide
      revert hne
      generalize "__id__".toList = a
      generalize "loopback".toList = b
      intro hne
      rw [dget_append]
      by_cases h1 : k = a
      · subst h1
        rw [if_pos (.inl rfl)]
        cases dget data k <;> cases dget data b <;> simp [dget_cons, dget_nil, hne, hne.symm]
      · by_cases h2 : k = b
        · subst h2
          rw [if_pos (.inr rfl)]
          cases dget data a <;> cases dget data k <;> simp [dget_cons, dget_nil, hne, hne.symm]
        · rw [if_neg (by rintro (h | h); exacts [h1 h, h2 h])]
          cases dget data a <;> cases dget data b <;> simp [dget_cons, dget_nil, Ne.symm h1, Ne.symm h2, h1, h2]

/-- C106 fails for some names: a message with one of three keys that no handler is registered for makes `handle_json`
throw, so that a request among them is never answered. -/
theorem C106_names_fails (handlers : List (List Char)) (throws : List Char → V → Bool) (data : List (List Char × V))
    (k : List Char) (v : V) (hk : (k, v) ∈ data) (hh : k ∉ handlers)
    (hn : k = "__proto__".toList ∨ k = "__defineGetter__".toList ∨ k = "__defineSetter__".toList) :
    (handleJson handlers throws data).ended = .threw ∧ (handleJson handlers throws data).sent = none := by
  have hu : k ∈ uncallable := by
    rcases hn with rfl | rfl | rfl <;> decide
  have hl : (loop handlers throws data).2 = .threw := by
    induction data with
    | nil => cases hk
    | cons p rest ih =>
      obtain ⟨k', v'⟩ := p
      unfold loop
      by_cases h' : k' ∈ handlers
      · rw [if_pos h']
        split
        · rfl
        · rcases List.mem_cons.mp hk with h | h
          · cases h; exact absurd h' hh
          · exact ih h
      · rw [if_neg h']
        split
        · rfl
        · rename_i hu'
          rcases List.mem_cons.mp hk with h | h
          · cases h; exact absurd hu hu'
          · exact ih h
  unfold handleJson
  simp only [hl]
  exact ⟨trivial, trivial⟩

/-- A frame with two messages, and the answer to a loopback request. -/
example : (∃ b, (Proc.new .uint32 defaultByteOrder).encodeAll [[1, 2], []] = .ok b ∧
      onmessage (fun _ => true) b = ([[1, 2], []], .done)) ∧
    (handleJson ["ui".toList] (fun _ _ => false)
      [("loopback".toList, 7), ("ui".toList, 8), ("meta".toList, 9), ("__id__".toList, 1)]).sent
        = some [("__id__".toList, 1), ("loopback".toList, 7)] :=
  ⟨⟨_, rfl, C106_browser_receives _ _ (by decide) (by decide) _ rfl⟩, by decide +kernel⟩

end Verif.Json.Browser
