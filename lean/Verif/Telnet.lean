import Verif.Ascii
/-!
C44: `Telnet.process_binary` (net/tcp/telnet/__init__.py) and its codes (codes.py).

The handlers are taken as events; a `process_option` that reads on from the stream it is given is not
modelled (no class in the package does).
-/
namespace Verif.Telnet

/-- `TelnetCode.is_option_code`, codes.py 69–72. -/
def isOption (b : UInt8) : Bool := 251 ≤ b.toNat ∧ b.toNat ≤ 254

/-- `TelnetNvt.is_nvt`, codes.py 129–132. -/
def isNvt (b : UInt8) : Bool := b.toNat = 0 ∨ (7 ≤ b.toNat ∧ b.toNat ≤ 13)

/-- `TelnetNvt.to_stream`, codes.py 111–127: whether the byte is kept as text. -/
def toStream (b : UInt8) : Bool := b.toNat = 13 ∨ b.toNat = 10 ∨ b.toNat = 9

/-- `processing_option` with the last byte, `processing_command`, or neither, __init__.py 73–78. -/
inductive Mode where
  | text
  | command
  | option (last : UInt8)
  deriving DecidableEq

/-- Calls of the handlers. -/
inductive Ev where
  | command (c : UInt8)
  | option (c n : UInt8)
  | nvt (v : UInt8)
  deriving DecidableEq

/-- One byte, __init__.py 89–121: the new mode, the handlers called, the bytes written to the text.
`TelnetCode(val)` raises below 240. -/
def step (m : Mode) (b : UInt8) : Except PyErr (Mode × List Ev × Bytes) :=
  match m with
  | .option last => .ok (.text, [.option last b], [])
  | .command =>
    if isOption b then .ok (.option b, [], [])
    else if b.toNat = 255 then .ok (.text, [], [b])
    else if b.toNat < 240 then .error .value
    else .ok (.text, [.command b], [])
  | .text =>
    if b.toNat = 255 then .ok (.command, [], [])
    else if isNvt b then
      if toStream b then .ok (.text, [], [b]) else .ok (.text, [.nvt b], [])
    else .ok (.text, [], [b])

/-- The loop, __init__.py 84–121. -/
def run : Mode → Bytes → List Ev × Bytes × Option PyErr
  | _, [] => ([], [], none)
  | m, b :: bs =>
    match step m b with
    | .error e => ([], [], some e)
    | .ok (m', es, t) => (es ++ (run m' bs).1, t ++ (run m' bs).2.1, (run m' bs).2.2)

/-- `process_binary`, __init__.py 68–127 with `process_telnet_message`, 38–40: the handlers called, the
text handed to `process_text`, the exception raised. -/
def processBinary (data : Bytes) : List Ev × Option (List Char) × Option PyErr :=
  match run .text data with
  | (es, _, some e) => (es, none, some e)
  | (es, t, none) =>
    if t = [] then (es, none, none)
    else match utf8Dec t with
      | .ok s => (es, some s, none)
      | .error e => (es, none, some e)

/-! ### What a telnet stream means -/

/-- The elements of a telnet stream. -/
inductive Item where
  | byte (b : UInt8)
  | command (c : UInt8)
  | option (c n : UInt8)
  | nvt (v : UInt8)

/-- Which elements RFC 854 and the codes allow: text bytes are all but the silent NVT codes. -/
def Item.Legal : Item → Prop
  | .byte b => b.toNat ≠ 0 ∧ b.toNat ≠ 7 ∧ b.toNat ≠ 8 ∧ b.toNat ≠ 11 ∧ b.toNat ≠ 12
  | .command c => 240 ≤ c.toNat ∧ c.toNat ≤ 250
  | .option c _ => 251 ≤ c.toNat ∧ c.toNat ≤ 254
  | .nvt v => v.toNat = 0 ∨ v.toNat = 7 ∨ v.toNat = 8 ∨ v.toNat = 11 ∨ v.toNat = 12

/-- Their bytes: 255 introduces commands and is doubled in text. -/
def Item.bytes : Item → Bytes
  | .byte b => if b.toNat = 255 then [b, b] else [b]
  | .command c => [255, c]
  | .option c n => [255, c, n]
  | .nvt v => [v]

/-- The text of an element. -/
def Item.text : Item → Bytes
  | .byte b => [b]
  | _ => []

/-- The handler call of an element. -/
def Item.events : Item → List Ev
  | .byte _ => []
  | .command c => [.command c]
  | .option c n => [.option c n]
  | .nvt v => [.nvt v]

theorem run_item (i : Item) (h : i.Legal) (rest : Bytes) :
    run .text (i.bytes ++ rest) =
      (i.events ++ (run .text rest).1, i.text ++ (run .text rest).2.1, (run .text rest).2.2) := by
  have hff : (255 : UInt8).toNat = 255 := rfl
  cases i with
  | byte b =>
    obtain ⟨h0, h7, h8, h11, h12⟩ := h
    by_cases hb : b.toNat = 255
    · have ho : isOption b = false := by simp [isOption, hb]
      simp [Item.bytes, hb, run, step, Item.events, Item.text, ho]
    · by_cases hn : isNvt b = true
      · have ht : toStream b = true := by
          simp only [isNvt, decide_eq_true_eq] at hn
          simp only [toStream, decide_eq_true_eq]
          omega
        simp [Item.bytes, hb, run, step, Item.events, Item.text, hn, ht]
      · simp [Item.bytes, hb, run, step, Item.events, Item.text, hn]
  | command c =>
    obtain ⟨h1, h2⟩ := h
    have ho : isOption c = false := by simp [isOption]; omega
    have hc : ¬ c.toNat = 255 := by omega
    have hl : ¬ c.toNat < 240 := by omega
    simp [Item.bytes, run, step, Item.events, Item.text, ho, hc, hl, hff]
  | option c n =>
    obtain ⟨h1, h2⟩ := h
    have ho : isOption c = true := by simp [isOption]; omega
    simp [Item.bytes, run, step, Item.events, Item.text, ho, hff]
  | nvt v =>
    have hv : ¬ v.toNat = 255 := by unfold Item.Legal at h; omega
    have hn : isNvt v = true := by
      simp only [isNvt, decide_eq_true_eq]
      unfold Item.Legal at h; omega
    have ht : toStream v = false := by
      simp only [toStream, decide_eq_false_iff_not]
      unfold Item.Legal at h; omega
    simp [Item.bytes, run, step, Item.events, Item.text, hv, hn, ht]

theorem run_items (is : List Item) (h : ∀ i ∈ is, i.Legal) (rest : Bytes) :
    run .text (is.flatMap Item.bytes ++ rest) =
      (is.flatMap Item.events ++ (run .text rest).1, is.flatMap Item.text ++ (run .text rest).2.1,
        (run .text rest).2.2) := by
  induction is with
  | nil => simp
  | cons i is ih =>
    rw [List.flatMap_cons, List.append_assoc, run_item i (h i List.mem_cons_self),
      ih (fun j hj => h j (List.mem_cons_of_mem _ hj))]
    simp

/-- C44. Every sequence of text bytes, commands, options and NVT codes is split as written: every
command and option reaches its handler in order, and the text is every text byte in order, with the
doubled 255 restored. -/
theorem C44_items (is : List Item) (h : ∀ i ∈ is, i.Legal) :
    run .text (is.flatMap Item.bytes) = (is.flatMap Item.events, is.flatMap Item.text, none) := by
  have := run_items is h []
  simpa [run] using this

/-- C44. Nothing else happens: every byte stream whatever is a sequence of elements followed by a cut-off
command (which is dropped) or by a reserved command (which raises). -/
theorem C44_every_stream (data : Bytes) :
    ∃ (is : List Item) (tail : Bytes), (∀ i ∈ is, Item.Legal i) ∧ data = is.flatMap Item.bytes ++ tail ∧
      ((run .text data = (is.flatMap Item.events, is.flatMap Item.text, none) ∧
          (tail = [] ∨ tail = [255] ∨ ∃ c : UInt8, 251 ≤ c.toNat ∧ c.toNat ≤ 254 ∧ tail = [255, c])) ∨
       (run .text data = (is.flatMap Item.events, is.flatMap Item.text, some .value) ∧
          ∃ (c : UInt8) (rest : Bytes), c.toNat < 240 ∧ tail = 255 :: c :: rest)) := by
  have hff : (255 : UInt8).toNat = 255 := rfl
  -- prepending an element
  have pre : ∀ (i : Item) (rest : Bytes), i.Legal → (∃ (is : List Item) (tail : Bytes), (∀ i ∈ is, Item.Legal i) ∧ rest = is.flatMap Item.bytes ++ tail ∧
      ((run .text rest = (is.flatMap Item.events, is.flatMap Item.text, none) ∧
          (tail = [] ∨ tail = [255] ∨ ∃ c : UInt8, 251 ≤ c.toNat ∧ c.toNat ≤ 254 ∧ tail = [255, c])) ∨
       (run .text rest = (is.flatMap Item.events, is.flatMap Item.text, some .value) ∧
          ∃ (c : UInt8) (rest : Bytes), c.toNat < 240 ∧ tail = 255 :: c :: rest))) →
      ∃ (is : List Item) (tail : Bytes), (∀ i ∈ is, Item.Legal i) ∧ i.bytes ++ rest = is.flatMap Item.bytes ++ tail ∧
      ((run .text (i.bytes ++ rest) = (is.flatMap Item.events, is.flatMap Item.text, none) ∧
          (tail = [] ∨ tail = [255] ∨ ∃ c : UInt8, 251 ≤ c.toNat ∧ c.toNat ≤ 254 ∧ tail = [255, c])) ∨
       (run .text (i.bytes ++ rest) = (is.flatMap Item.events, is.flatMap Item.text, some .value) ∧
          ∃ (c : UInt8) (rest : Bytes), c.toNat < 240 ∧ tail = 255 :: c :: rest)) := by
    rintro i rest hi ⟨is, tail, hl, hd, hr⟩
    refine ⟨i :: is, tail, ?_, by rw [hd]; simp, ?_⟩
    · intro j hj
      rcases List.mem_cons.mp hj with rfl | hj
      · exact hi
      · exact hl j hj
    · rw [run_item i hi]
      rcases hr with ⟨hr, ht⟩ | ⟨hr, ht⟩
      · exact Or.inl ⟨by rw [hr]; simp, ht⟩
      · exact Or.inr ⟨by rw [hr]; simp, ht⟩
  match data with
  | [] => exact ⟨[], [], by simp, rfl, Or.inl ⟨rfl, Or.inl rfl⟩⟩
  | b :: rest =>
    by_cases hb : b.toNat = 255
    · have hb' : b = 255 := UInt8.toNat_inj.mp hb
      subst hb'
      match rest with
      | [] => exact ⟨[], [255], by simp, rfl, Or.inl ⟨rfl, Or.inr (Or.inl rfl)⟩⟩
      | c :: rest' =>
        by_cases h1 : c.toNat < 240
        · refine ⟨[], 255 :: c :: rest', by simp, rfl, Or.inr ⟨?_, c, rest', h1, rfl⟩⟩
          have ho : isOption c = false := by simp [isOption]; omega
          have hc : ¬ c.toNat = 255 := by omega
          simp [run, step, ho, hc, h1, hff]
        · by_cases h2 : c.toNat ≤ 250
          · exact pre (.command c) rest' ⟨by omega, h2⟩ (C44_every_stream rest')
          · by_cases h3 : c.toNat = 255
            · have hc' : c = 255 := UInt8.toNat_inj.mp h3
              subst hc'
              exact pre (.byte 255) rest' (by simp [Item.Legal, hff]) (C44_every_stream rest')
            · have hlt := c.toNat_lt
              match rest' with
              | [] =>
                refine ⟨[], [255, c], by simp, rfl, Or.inl ⟨?_, Or.inr (Or.inr ⟨c, by omega, by omega, rfl⟩)⟩⟩
                have ho : isOption c = true := by simp [isOption]; omega
                simp [run, step, ho, hff]
              | n :: rest'' => exact pre (.option c n) rest'' ⟨by omega, by omega⟩ (C44_every_stream rest'')
    · by_cases hs : b.toNat = 0 ∨ b.toNat = 7 ∨ b.toNat = 8 ∨ b.toNat = 11 ∨ b.toNat = 12
      · exact pre (.nvt b) rest hs (C44_every_stream rest)
      · have := pre (.byte b) rest ⟨by omega, by omega, by omega, by omega, by omega⟩ (C44_every_stream rest)
        simpa [Item.bytes, hb] using this
  termination_by data.length

/-- C44. Pieces cut between elements: together they give what the whole gives. -/
theorem C44_pieces_partial (pieces : List (List Item)) (h : ∀ is ∈ pieces, ∀ i ∈ is, i.Legal) :
    pieces.flatMap (fun is => (run .text (is.flatMap Item.bytes)).1) =
      (run .text (pieces.flatten.flatMap Item.bytes)).1 ∧
    pieces.flatMap (fun is => (run .text (is.flatMap Item.bytes)).2.1) =
      (run .text (pieces.flatten.flatMap Item.bytes)).2.1 ∧
    ∀ is ∈ pieces, (run .text (is.flatMap Item.bytes)).2.2 = none := by
  have hall : ∀ i ∈ pieces.flatten, i.Legal := by
    intro i hi
    obtain ⟨is, his, hi⟩ := List.mem_flatten.mp hi
    exact h is his i hi
  rw [C44_items _ hall]
  refine ⟨?_, ?_, fun is his => by rw [C44_items _ (h is his)]⟩ <;> clear hall <;>
  induction pieces with
  | nil => rfl
  | cons p ps ih =>
    rw [List.flatMap_cons, List.flatten_cons, C44_items _ (h p List.mem_cons_self),
      ih (fun is his => h is (List.mem_cons_of_mem _ his))]
    simp

/-- C44. Text reaches `process_text`: the words of any string, with commands, options and silent codes
between them. -/
theorem C44_text (is : List Item) (h : ∀ i ∈ is, i.Legal) (s : List Char) (hne : s ≠ [])
    (hs : is.flatMap Item.text = utf8 s) :
    processBinary (is.flatMap Item.bytes) = (is.flatMap Item.events, some s, none) := by
  have hnn : utf8 s ≠ [] := by
    intro e
    have h1 := utf8_length_ge s
    rw [e] at h1
    apply hne
    exact List.eq_nil_of_length_eq_zero (by simpa using h1)
  unfold processBinary
  rw [C44_items is h, hs]
  simp only
  rw [if_neg hnn, utf8Dec_utf8]

/-- C44. A reserved command byte raises: the handlers of what came before it have been called, no text is handed on,
and the rest is not looked at. -/
theorem C44_reserved (is : List Item) (h : ∀ i ∈ is, i.Legal) (c : UInt8) (hc : c.toNat < 240) (rest : Bytes) :
    processBinary (is.flatMap Item.bytes ++ 255 :: c :: rest) = (is.flatMap Item.events, none, some .value) := by
  have ho : isOption c = false := by
    unfold isOption; simp; omega
  have hr : run .text (255 :: c :: rest) = ([], [], some .value) := by
    simp only [run, step]
    rw [if_pos (by decide)]
    simp only [ho, Bool.false_eq_true, if_false, List.nil_append]
    rw [if_neg (by omega), if_pos hc]
  unfold processBinary
  rw [run_items is h, hr]
  simp

/-- C44 in full fails: a command, option or doubled byte cut in two is lost, and what follows the cut is
taken as text. For every option of every code: -/
theorem C44_cut_fails (c n : UInt8) (hc : 251 ≤ c.toNat ∧ c.toNat ≤ 254) (hn : 32 ≤ n.toNat ∧ n.toNat ≤ 254) :
    run .text ([255, c] ++ [n]) = ([.option c n], [], none) ∧
    run .text [255, c] = ([], [], none) ∧ run .text [n] = ([], [n], none) ∧
    run .text [255] = ([], [], none) ∧ run .text [c, n] = ([], [c, n], none) := by
  have hff : (255 : UInt8).toNat = 255 := rfl
  have ho : isOption c = true := by simp [isOption]; omega
  have hn1 : isNvt n = false := by simp only [isNvt, decide_eq_false_iff_not]; omega
  have hn2 : ¬ n.toNat = 255 := by omega
  have hc1 : isNvt c = false := by simp only [isNvt, decide_eq_false_iff_not]; omega
  have hc2 : ¬ c.toNat = 255 := by omega
  refine ⟨?_, ?_, ?_, ?_, ?_⟩ <;> simp [run, step, ho, hn1, hn2, hc1, hc2, hff]

theorem encodeChar_lt {c : Char} {b : UInt8} (h : b ∈ String.utf8EncodeChar c) : b.toNat < 248 := by
  unfold String.utf8EncodeChar at h
  simp only at h
  have key : ∀ n, n < 248 → b = UInt8.ofNat n → b.toNat < 248 := by
    intro n h1 e
    rw [e, ofNat_toNat_lt (by omega)]
    exact h1
  split at h
  · simp only [List.mem_singleton] at h
    exact key _ (by omega) h
  · split at h
    · simp only [List.mem_cons, List.not_mem_nil, or_false] at h
      rcases h with h | h <;> exact key _ (by omega) h
    · split at h
      · simp only [List.mem_cons, List.not_mem_nil, or_false] at h
        rcases h with h | h | h <;> exact key _ (by omega) h
      · simp only [List.mem_cons, List.not_mem_nil, or_false] at h
        rcases h with h | h | h | h <;> exact key _ (by omega) h

/-- A restored 255 never reaches `process_text`: no UTF-8 text contains it, so the default
`process_telnet_message` always raises. -/
theorem C44_escaped_fails (is : List Item) (h : ∀ i ∈ is, i.Legal) (h255 : Item.byte 255 ∈ is) :
    processBinary (is.flatMap Item.bytes) = (is.flatMap Item.events, none, some .unicode) := by
  have hm : (255 : UInt8) ∈ is.flatMap Item.text := List.mem_flatMap.mpr ⟨_, h255, by simp [Item.text]⟩
  have hnn : is.flatMap Item.text ≠ [] := List.ne_nil_of_mem hm
  unfold processBinary
  rw [C44_items is h]
  simp only
  rw [if_neg hnn]
  cases hd : utf8Dec (is.flatMap Item.text) with
  | error e =>
    unfold utf8Dec at hd
    split at hd
    · cases hd
    · injection hd with hd; subst hd; rfl
  | ok s =>
    have := utf8_of_utf8Dec hd
    rw [← this] at hm
    obtain ⟨c, _, hc⟩ := List.mem_flatMap.mp hm
    have := encodeChar_lt hc
    exact absurd this (by decide)

/-- Text interleaved with a command is delivered after it, in one piece. -/
example : processBinary ("ab".toUTF8.toList ++ [255, 246] ++ "c".toUTF8.toList ++ [255, 253, 1, 7, 13, 10]) =
    ([.command 246, .option 253 1, .nvt 7], some ['a', 'b', 'c', '\r', '\n'], none) := by decide +kernel

example : ∀ i ∈ [Item.byte 97, .byte 255, .command 246, .option 253 1, .nvt 7], i.Legal := by
  simp [Item.Legal]

end Verif.Telnet
