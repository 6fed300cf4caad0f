import Verif.Ascii
import Verif.Split
import Verif.Wire.Props
/-!
C40: TFTP packets (`net/udp/tftp/base.py`, `net/udp/tftp/enums.py`): what is sent and what the other
side makes of it.
-/
namespace Verif.Tftp
open Verif.Wire

/-- `TftpErrorCode`, enums.py 29–59: the values 0 to 8. -/
abbrev ErrorCode := Fin 9

/-- The packets a connection sends: `send_rrq`, `send_wrq`, `send_data`, `send_ack`, `send_error`,
base.py 186–249. -/
inductive Packet where
  | rrq (filename mode : List Char)
  | wrq (filename mode : List Char)
  | data (block : Int) (d : Bytes)
  | ack (block : Int)
  | error (code : ErrorCode) (message : List Char)
  deriving DecidableEq

/-- Storing into a `Uint16` (ctypes wraps) and writing it, base.py 219–222, 228–229, 240–241,
266–267. -/
def u16 (v : Int) : Except PyErr Bytes := encodeInt .uint16 defaultByteOrder (wrap .uint16 v)

/-- `encode_filename_mode`, enums.py 73–86. -/
def encodeFilenameMode (filename mode : List Char) : Bytes :=
  utf8 filename ++ [0] ++ utf8 mode ++ [0]

/-- `_send_message`, base.py 257–272. -/
def sendMessage (opcode : Int) (d : Bytes) : Except PyErr Bytes := do
  let op ← u16 opcode
  return op ++ d

/-- The datagram for a packet. -/
def Packet.encode : Packet → Except PyErr Bytes
  | .rrq f m => sendMessage 1 (encodeFilenameMode f m)
  | .wrq f m => sendMessage 2 (encodeFilenameMode f m)
  | .data b d => do
    let n ← u16 b
    sendMessage 3 (n ++ d)
  | .ack b => do
    let n ← u16 b
    sendMessage 4 n
  | .error c m => do
    let n ← u16 c.val
    sendMessage 5 (n ++ utf8 m ++ [0])

/-- `parse_filename_mode`, enums.py 62–67; `splitOn 0` is `split(bytes(1))`. -/
def parseFilenameMode (body : Bytes) : Except PyErr (List Char × List Char) :=
  match splitOn 0 body with
  | f :: m :: _ => do
    let f' ← utf8Dec f
    let m' ← utf8Dec m
    return (f', m')
  | [f] =>
    match utf8Dec f with
    | .ok _ => .error .index
    | .error e => .error e
  | [] => .error .index

/-- `Uint16.from_stream`: reads at most two bytes; fewer is a `struct.error`. -/
def readU16 (s : Bytes) : Except PyErr (Int × Bytes) := do
  let v ← decodeInt .uint16 defaultByteOrder (s.take 2)
  return (v, s.drop 2)

/-- What `process_datagram` hands to a handler, or `none` for an unknown opcode; base.py 274–382. -/
def decode (s : Bytes) : Except PyErr (Option Packet) := do
  let (op, body) ← readU16 s
  if op = 1 then
    let (f, m) ← parseFilenameMode body
    return some (.rrq f m)
  else if op = 2 then
    let (f, m) ← parseFilenameMode body
    return some (.wrq f m)
  else if op = 3 then
    let (b, d) ← readU16 body
    return some (.data b d)
  else if op = 4 then
    let (b, _) ← readU16 body
    return some (.ack b)
  else if op = 5 then
    let (c, rest) ← readU16 body
    if h : 0 ≤ c ∧ c < 9 then
      let m ← utf8Dec rest
      return some (.error ⟨c.toNat, by omega⟩ m)
    else .error .value
  else return none

/-! ### Lemmas -/

theorem ok_bind {α β : Type} (a : α) (f : α → Except PyErr β) : (Except.ok a >>= f) = f a := rfl

theorem error_bind {α β : Type} (e : PyErr) (f : α → Except PyErr β) :
    (Except.error e >>= f) = .error e := rfl

theorem pure_ok {α : Type} (a : α) : (pure a : Except PyErr α) = .ok a := rfl

/-- Any integer is stored modulo 2^16 and read back so. -/
theorem u16_ok (v : Int) :
    ∃ b, u16 v = .ok b ∧ b.length = 2 ∧ ∀ rest, readU16 (b ++ rest) = .ok (v % 65536, rest) := by
  have hr := (packable_iff .uint16 _).mp (wrap_packable .uint16 v)
  have hr1 : 0 ≤ wrap .uint16 v := hr.1
  have hr2 : wrap .uint16 v ≤ 65535 := hr.2
  have hm : wrap .uint16 v % 65536 = v % 65536 := wrap_emod .uint16 v
  have hw : wrap .uint16 v = v % 65536 := by omega
  obtain ⟨b, hb, hl, hd⟩ := (C01_encode_decode .uint16 defaultByteOrder (wrap .uint16 v)).1 hr
  have hl2 : b.length = 2 := hl
  refine ⟨b, hb, hl, ?_⟩
  intro rest
  have ht : (b ++ rest).take 2 = b := by rw [← hl2, List.take_left]
  have hdr : (b ++ rest).drop 2 = rest := by rw [← hl2, List.drop_left]
  simp only [readU16, ht, hdr, hd, hw]
  rfl

theorem parse_general (f m rest : Bytes) (hf : (0 : UInt8) ∉ f) (hm : (0 : UInt8) ∉ m) (fs ms : List Char)
    (h1 : utf8Dec f = .ok fs) (h2 : utf8Dec m = .ok ms) :
    parseFilenameMode (f ++ 0 :: (m ++ 0 :: rest)) = .ok (fs, ms) := by
  unfold parseFilenameMode
  rw [splitOn_append 0 _ _ hf, splitOn_append 0 _ _ hm]
  simp only [h1, h2]
  rfl

theorem send_ok (op : Int) (body : Bytes) (h : 0 ≤ op ∧ op < 65536 := by decide) :
    ∃ b, sendMessage op body = .ok (b ++ body) ∧ b.length = 2 ∧
      readU16 (b ++ body) = .ok (op, body) := by
  obtain ⟨b, hb, hl, hr⟩ := u16_ok op
  rw [Int.emod_eq_of_lt h.1 h.2] at hr
  refine ⟨b, ?_, hl, hr body⟩
  simp only [sendMessage, hb]
  rfl

/-- C40. Read and write requests: every file name and mode without NUL characters come back. -/
theorem C40_request (f m : List Char) (hf : '\x00' ∉ f) (hm : '\x00' ∉ m) :
    ((Packet.rrq f m).encode >>= decode) = .ok (some (.rrq f m)) ∧
    ((Packet.wrq f m).encode >>= decode) = .ok (some (.wrq f m)) := by
  have hp : parseFilenameMode (encodeFilenameMode f m) = .ok (f, m) := by
    have e : encodeFilenameMode f m = utf8 f ++ 0 :: (utf8 m ++ 0 :: []) := by
      simp [encodeFilenameMode]
    rw [e]
    exact parse_general _ _ _ (fun h => hf ((zero_mem_utf8 f).mp h))
      (fun h => hm ((zero_mem_utf8 m).mp h)) _ _ (utf8Dec_utf8 f) (utf8Dec_utf8 m)
  constructor
  · obtain ⟨b, hb, -, hr⟩ := send_ok 1 (encodeFilenameMode f m)
    simp only [Packet.encode, hb, ok_bind, decode, hr, hp]
    rfl
  · obtain ⟨b, hb, -, hr⟩ := send_ok 2 (encodeFilenameMode f m)
    simp only [Packet.encode, hb, ok_bind, decode, hr, hp]
    rfl

example : (Packet.rrq "ä/b.txt".toList "octet".toList).encode =
    .ok [0, 1, 195, 164, 47, 98, 46, 116, 120, 116, 0, 111, 99, 116, 101, 116, 0] := by decide +kernel

/-- C40. Data packets come back with any payload; the block number modulo 2^16. -/
theorem C40_data (n : Int) (d : Bytes) :
    ((Packet.data n d).encode >>= decode) = .ok (some (.data (n % 65536) d)) := by
  obtain ⟨c, hc, -, hrc⟩ := u16_ok n
  obtain ⟨b, hb, -, hr⟩ := send_ok 3 (c ++ d)
  simp only [Packet.encode, hc, hb, ok_bind, decode, hr, hrc, pure_ok]
  simp only [Int.reduceEq, if_false, if_true]

/-- C40. Acknowledgements likewise. -/
theorem C40_ack (n : Int) :
    ((Packet.ack n).encode >>= decode) = .ok (some (.ack (n % 65536))) := by
  obtain ⟨c, hc, -, hrc⟩ := u16_ok n
  obtain ⟨b, hb, -, hr⟩ := send_ok 4 c
  have := hrc []
  rw [List.append_nil] at this
  simp only [Packet.encode, hc, hb, ok_bind, decode, hr, this, pure_ok]
  simp only [Int.reduceEq, if_false, if_true]

/-- C40. In particular every 16-bit block number is kept, and a data packet has four bytes beyond its
payload. -/
theorem C40_block_numbers (n : Int) (h : 0 ≤ n ∧ n < 65536) (d : Bytes) :
    ((Packet.data n d).encode >>= decode) = .ok (some (.data n d)) ∧
    ((Packet.ack n).encode >>= decode) = .ok (some (.ack n)) ∧
    ∃ bs, (Packet.data n d).encode = .ok bs ∧ bs.length = d.length + 4 := by
  have e : n % 65536 = n := Int.emod_eq_of_lt h.1 h.2
  refine ⟨by rw [C40_data, e], by rw [C40_ack, e], ?_⟩
  obtain ⟨c, hc, hcl, -⟩ := u16_ok n
  obtain ⟨b, hb, hbl, -⟩ := send_ok 3 (c ++ d)
  refine ⟨b ++ (c ++ d), ?_, by simp [hcl, hbl]; omega⟩
  simp only [Packet.encode, hc, ok_bind]
  exact hb

example : (Packet.data 258 [7, 0, 9]).encode = .ok [0, 3, 1, 2, 7, 0, 9] ∧
    (Packet.ack 65535).encode = .ok [0, 4, 255, 255] := by decide

theorem utf8Dec_error (m : List Char) : utf8Dec (utf8 m ++ [0]) = .ok (m ++ ['\x00']) := by
  rw [← utf8Dec_utf8 (m ++ ['\x00']), utf8_append]
  rfl

/-- C40. Error packets: the code is kept, and the message comes back with the terminating NUL still
attached. -/
theorem C40_error_partial (c : ErrorCode) (m : List Char) :
    ((Packet.error c m).encode >>= decode) = .ok (some (.error c (m ++ ['\x00']))) := by
  obtain ⟨n, hn, -, hrn⟩ := u16_ok (c.val : Int)
  obtain ⟨b, hb, -, hr⟩ := send_ok 5 (n ++ utf8 m ++ [0])
  rw [List.append_assoc] at hb hr
  have e : (c.val : Int) % 65536 = c.val := by have := c.isLt; omega
  have hc : (0 : Int) ≤ (c.val : Int) ∧ (c.val : Int) < 9 := by have := c.isLt; omega
  have hd := hrn (utf8 m ++ [0])
  rw [e] at hd
  simp only [Packet.encode, hn, ok_bind, List.append_assoc, hb, decode, hr, hd,
    dif_pos hc, utf8Dec_error]
  rfl

/-- C40 in full fails for error packets: no message survives unchanged. -/
theorem C40_error_fails (c : ErrorCode) (m : List Char) :
    ((Packet.error c m).encode >>= decode) ≠ .ok (some (.error c m)) := by
  rw [C40_error_partial]
  intro h
  injection h with h
  injection h with h
  injection h with _ h
  have := congrArg List.length h
  simp at this

/-- Without the hypothesis on NULs the name is cut at the first one, and what follows is taken as the
mode. -/
theorem C40_nul_fails (f g m : List Char) (hf : '\x00' ∉ f) (hg : '\x00' ∉ g) :
    ((Packet.rrq (f ++ '\x00' :: g) m).encode >>= decode) = .ok (some (.rrq f g)) := by
  have hp : parseFilenameMode (encodeFilenameMode (f ++ '\x00' :: g) m) = .ok (f, g) := by
    have e : encodeFilenameMode (f ++ '\x00' :: g) m =
        utf8 f ++ 0 :: (utf8 g ++ 0 :: (utf8 m ++ [0])) := by
      have : utf8 ('\x00' :: g) = 0 :: utf8 g := rfl
      simp [encodeFilenameMode, utf8_append, this]
    rw [e]
    exact parse_general _ _ _ (fun h => hf ((zero_mem_utf8 f).mp h))
      (fun h => hg ((zero_mem_utf8 g).mp h)) _ _ (utf8Dec_utf8 f) (utf8Dec_utf8 g)
  obtain ⟨b, hb, -, hr⟩ := send_ok 1 (encodeFilenameMode (f ++ '\x00' :: g) m)
  simp only [Packet.encode, hb, ok_bind, decode, hr, hp]
  rfl

/-- Inverse of `readU16`. -/
theorem readU16_inv {s : Bytes} {v : Int} {rest : Bytes} (h : readU16 s = .ok (v, rest)) :
    ∃ b, u16 v = .ok b ∧ s = b ++ rest ∧ 0 ≤ v ∧ v < 65536 := by
  unfold readU16 at h
  by_cases hl : (s.take 2).length = Spec.bytes .uint16
  · obtain ⟨w, hd, hlo, hhi, -, henc⟩ := (C02_decode_encode .uint16 defaultByteOrder _).1 hl
    rw [hd] at h
    have h' : (Except.ok (w, s.drop 2) : Except PyErr (Int × Bytes)) = .ok (v, rest) := h
    injection h' with h'
    injection h' with h1 h2
    subst h1; subst h2
    have hw : wrap .uint16 w = w := wrap_of_packable .uint16 w ((packable_iff .uint16 w).mpr ⟨hlo, hhi⟩)
    have hlo' : 0 ≤ w := hlo
    have hhi' : w ≤ 65535 := hhi
    exact ⟨s.take 2, by rw [u16, hw]; exact henc, (List.take_append_drop 2 s).symm, hlo', by omega⟩
  · rw [(C02_decode_encode .uint16 defaultByteOrder _).2 hl] at h
    cases h

/-- C40. Any datagram accepted as data is the encoding of what it is taken for. -/
theorem C40_data_only (s : Bytes) (n : Int) (d : Bytes) (h : decode s = .ok (some (.data n d))) :
    (Packet.data n d).encode = .ok s ∧ 0 ≤ n ∧ n < 65536 := by
  unfold decode at h
  cases hr : readU16 s with
  | error e => rw [hr] at h; cases h
  | ok p =>
    obtain ⟨op, body⟩ := p
    rw [hr] at h
    simp only [ok_bind, pure_ok] at h
    obtain ⟨b, hb, hs, -, -⟩ := readU16_inv hr
    have bind_ne : ∀ {α : Type} (x : Except PyErr α) (f : α → Except PyErr (Option Packet)),
        (∀ a, f a ≠ .ok (some (.data n d))) → (x >>= f) ≠ .ok (some (.data n d)) := by
      intro α x f hf
      cases x with
      | error e => intro hx; cases hx
      | ok a => exact hf a
    split at h
    · exact absurd h (bind_ne _ _ (by intro a ha; simp at ha))
    split at h
    · exact absurd h (bind_ne _ _ (by intro a ha; simp at ha))
    split at h
    · rename_i h3
      cases hr2 : readU16 body with
      | error e => rw [hr2] at h; cases h
      | ok q =>
        obtain ⟨n', d'⟩ := q
        rw [hr2] at h
        simp only [ok_bind, Except.ok.injEq, Option.some.injEq, Packet.data.injEq] at h
        obtain ⟨rfl, rfl⟩ := h
        obtain ⟨c, hc, hs2, h0, h1⟩ := readU16_inv hr2
        refine ⟨?_, h0, h1⟩
        subst h3
        simp only [Packet.encode, hc, ok_bind, sendMessage, hb, hs, hs2, pure_ok]
    split at h
    · exact absurd h (bind_ne _ _ (by intro a ha; simp at ha))
    split at h
    · refine absurd h (bind_ne _ _ ?_)
      intro a ha
      split at ha
      · exact absurd ha (bind_ne _ _ (by intro a ha; simp at ha))
      · cases ha
    · simp at h

/-- Fewer than two bytes are refused by a `struct.error`; a request without a NUL by an
`IndexError`. -/
theorem C40_short (s : Bytes) (h : s.length < 2) : decode s = .error .struct := by
  have : (s.take 2).length ≠ Spec.bytes .uint16 := by
    show (s.take 2).length ≠ 2
    simp; omega
  simp only [decode, readU16, (C02_decode_encode .uint16 defaultByteOrder _).2 this,
    error_bind]

/-- C40. A request body without a NUL is never accepted. -/
theorem C40_unterminated (body : Bytes) (h : (0 : UInt8) ∉ body) :
    ∃ e, parseFilenameMode body = .error e ∧ (e = .index ∨ e = .unicode) := by
  unfold parseFilenameMode
  rw [splitOn_none 0 _ h]
  simp only
  cases hd : utf8Dec body with
  | ok v => exact ⟨_, rfl, Or.inl rfl⟩
  | error e =>
    refine ⟨_, rfl, Or.inr ?_⟩
    unfold utf8Dec at hd
    split at hd <;> cases hd
    rfl

end Verif.Tftp
