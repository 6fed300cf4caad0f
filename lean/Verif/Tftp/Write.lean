import Verif.Tftp.Read
/-!
C64: a TFTP write (`request_write` without the read-back, `handle_write_request`, `ingest_file`)
under an arbitrary network, modelled as in `Read.lean`.
-/
namespace Verif.Tftp.Writes

/-- Datagrams of a write. -/
inductive WMsg where
  | wrq
  | data (block : Nat) (d : Bytes)
  | ack (block : Nat)
  deriving DecidableEq

/-- Where `request_write` is: waiting for the zeroth acknowledgement, serving block `i`, returned. -/
inductive WPhase where
  | asking
  | serving (i : Nat)
  | success
  | failed
  deriving DecidableEq

/-- The writing client, __init__.py 127–165 and `serve_file` (endpoint.py 232–260): `acked` is the
event being waited for. -/
structure Writer where
  phase : WPhase
  acked : Bool

/-- The awaited acknowledgement: 0 or the current block. -/
def Writer.expects (w : Writer) : Option Nat :=
  match w.phase with
  | .asking => some 0
  | .serving i => some i
  | .success | .failed => none

/-- `handle_ack`, endpoint.py 128–132: an expected acknowledgement sets the event. -/
def Writer.handle (w : Writer) : WMsg → Writer
  | .ack n => if w.expects = some n then { w with acked := true } else w
  | .wrq | .data .. => w

/-- The event is set: start serving, next block (asserting the index), or end. -/
def Writer.advance (cs : List Bytes) (w : Writer) : Writer :=
  if w.acked then
    match w.phase with
    | .asking => ⟨.serving 1, false⟩
    | .serving i =>
      if i + 1 > cs.length then ⟨.success, false⟩
      else if i + 1 < 2 ^ 16 then ⟨.serving (i + 1), false⟩
      else ⟨.failed, false⟩
    | .success | .failed => w
  else w

/-- A timeout: the write reports failure. -/
def Writer.timeout (w : Writer) : Writer :=
  if w.acked then w
  else
    match w.phase with
    | .asking | .serving _ => ⟨.failed, false⟩
    | .success | .failed => w

/-- What the client repeats while waiting. -/
def Writer.emits (cs : List Bytes) (w : Writer) : Option WMsg :=
  match w.phase with
  | .asking => some .wrq
  | .serving i => (cs[i - 1]?).map (.data i)
  | .success | .failed => none

/-- Where the serving side is: no task, waiting for block `idx`, sending the last acknowledgement. -/
inductive IPhase where
  | idle | waiting | dally
  deriving DecidableEq

/-- The server: queued write tasks, the running one, the endpoint's dictionaries and the file. -/
structure Ingest where
  queue : Nat
  phase : IPhase
  idx : Nat
  awaiting : Nat → Bool
  blocks : Nat → Option Bytes
  ev : Bool
  /-- The position of the running task's file object, which is also `written`. -/
  pos : Nat
  file : Bytes
  /-- Results of `ingest_file`, one per finished task; reported at the end of the last
  acknowledgements. -/
  results : List Bool

/-- Writing at a position; a gap is filled with zeros (the system's behaviour). Buffering of the file
object is left out. -/
def writeAt (file : Bytes) (pos : Nat) (d : Bytes) : Bytes :=
  file.take pos ++ List.replicate (pos - file.length) 0 ++ d ++ file.drop (pos + d.length)

/-- `handle_write_request` (endpoint.py 216–229): `_check_permission(path, "wb")` (296–317) opens,
and so empties, the file; then a task is created. `handle_data` as in the reader (111–126). -/
def Ingest.handle (g : Ingest) : WMsg → Ingest
  | .wrq => { g with file := [], queue := g.queue + 1 }
  | .data b d =>
    if g.awaiting b then
      { g with
        blocks := fun x => if x = b then some d else g.blocks x
        ev := g.ev || (g.phase == .waiting && b == g.idx)
        awaiting := fun x => x != b && g.awaiting x }
    else g
  | .ack _ => g

/-- A task takes the lock, opens the file and waits for block 1, endpoint.py 197–203, 152–163. -/
def Ingest.start (g : Ingest) : Ingest :=
  if g.phase = .idle ∧ g.queue ≠ 0 then
    { g with
      queue := g.queue - 1
      phase := .waiting
      idx := 1
      awaiting := fun x => x == 1 || g.awaiting x
      ev := false
      pos := 0
      file := [] }
  else g

/-- The awaited block is there, endpoint.py 164–198: too large a block raises; a full block goes on;
a short one ends the loop, with success only if anything was written. -/
def Ingest.wake (size : Nat) (g : Ingest) : Ingest :=
  if g.phase = .waiting ∧ g.ev = true then
    match g.blocks g.idx with
    | none => { g with phase := .idle, results := g.results ++ [false] }
    | some d =>
      if size < d.length then { g with phase := .idle, results := g.results ++ [false] }
      else
        let g' : Ingest := { g with
          file := writeAt g.file g.pos d
          pos := g.pos + d.length
          blocks := fun x => if x = g.idx then none else g.blocks x
          ev := false }
        if size ≤ d.length then { g' with idx := g.idx + 1, awaiting := fun x => x == g.idx + 1 || (x != g.idx && g.awaiting x) }
        else if 0 < g.pos + d.length then
          { g' with phase := .dally, awaiting := fun x => x != g.idx && g.awaiting x }
        else
          { g' with phase := .idle, awaiting := fun x => x != g.idx && g.awaiting x, results := g.results ++ [false] }
  else g

/-- No data in time: the task ends without success (`written` is 0 or the last block was full),
endpoint.py 164–176, 191–198. -/
def Ingest.timeout (g : Ingest) : Ingest :=
  if g.phase = .waiting ∧ g.ev = false then
    { g with
      phase := .idle
      awaiting := fun x => x != g.idx && g.awaiting x
      blocks := fun x => if x = g.idx then none else g.blocks x
      results := g.results ++ [false] }
  else g

/-- The end of the last acknowledgements, endpoint.py 200–212. -/
def Ingest.finish (g : Ingest) : Ingest :=
  if g.phase = .dally then { g with phase := .idle, results := g.results ++ [true] } else g

/-- Acknowledgements sent: of the previous block while waiting, of the last at the end. -/
def Ingest.emits (g : Ingest) : Option WMsg :=
  match g.phase with
  | .idle => none
  | .waiting => some (.ack (g.idx - 1))
  | .dally => some (.ack g.idx)

/-- Both sides and everything ever sent. `asked` counts deliveries of write requests. -/
structure WSys where
  w : Writer
  g : Ingest
  toG : List WMsg
  toW : List WMsg
  asked : Nat

/-- Steps of either side or of the network. -/
inductive WStep where
  | wSend | wAdvance | wTimeout
  | gSend | gStart | gWake | gTimeout | gFinish
  | deliverW (m : WMsg)
  | deliverG (m : WMsg)
  deriving DecidableEq

/-- The effect of a step of a write of the blocks `cs`. -/
def WSys.step (size : Nat) (cs : List Bytes) (s : WSys) : WStep → WSys
  | .wSend => { s with toG := s.toG ++ (s.w.emits cs).toList }
  | .wAdvance => { s with w := s.w.advance cs }
  | .wTimeout => { s with w := s.w.timeout }
  | .gSend => { s with toW := s.toW ++ s.g.emits.toList }
  | .gStart => { s with g := s.g.start }
  | .gWake => { s with g := s.g.wake size }
  | .gTimeout => { s with g := s.g.timeout }
  | .gFinish => { s with g := s.g.finish }
  | .deliverW m => if m ∈ s.toW then { s with w := s.w.handle m } else s
  | .deliverG m =>
    if m ∈ s.toG then
      { s with g := s.g.handle m, asked := s.asked + if m = .wrq then 1 else 0 }
    else s

/-- An execution, oldest step first. -/
def WSys.run (size : Nat) (cs : List Bytes) (s : WSys) (steps : List WStep) : WSys :=
  steps.foldl (WSys.step size cs) s

/-- The beginning: a client asking, an idle server with an old file. -/
def WSys.init (old : Bytes) : WSys :=
  ⟨⟨.asking, false⟩, ⟨0, .idle, 0, fun _ => false, fun _ => none, false, 0, old, []⟩, [], [], 0⟩

/-! ### Invariant for one delivered request -/

/-- Everything sent belongs to the file; the server is before, in or after its only task. -/
structure WInv (cs : List Bytes) (s : WSys) : Prop where
  data : ∀ b d, WMsg.data b d ∈ s.toG → 1 ≤ b ∧ cs[b - 1]? = some d
  serving : ∀ i, s.w.phase = .serving i → 1 ≤ i ∧ i ≤ cs.length
  one : s.asked ≤ 1
  fresh : s.asked = 0 → s.g.queue = 0 ∧ s.g.phase = .idle ∧ s.g.results = [] ∧ s.toW = []
  queue : s.g.queue ≤ 1 ∧ (s.g.queue = 1 → s.g.phase = .idle ∧ s.g.results = [] ∧ s.toW = [] ∧ s.g.file = [])
  idx : s.g.phase ≠ .idle → 1 ≤ s.g.idx ∧ s.g.idx ≤ cs.length
  busy : s.g.phase ≠ .idle → s.g.results = []
  ev : s.g.phase = .waiting → s.g.ev = true → s.g.blocks s.g.idx = cs[s.g.idx - 1]?
  wait : s.g.phase = .waiting → s.g.file = (cs.take (s.g.idx - 1)).flatten ∧ s.g.pos = s.g.file.length
  dally : s.g.phase = .dally → s.g.file = cs.flatten ∧ s.g.idx = cs.length ∧ 0 < s.g.file.length
  over : s.asked = 1 → s.g.phase = .idle → s.g.queue = 0 →
    s.g.results = [true] ∧ s.g.file = cs.flatten ∧ 0 < s.g.file.length ∨ s.g.results = [false] ∧ s.g.file <+: cs.flatten
  acks : ∀ b, WMsg.ack b ∈ s.toW →
    (b ≤ cs.length ∧ (b = cs.length → s.g.phase = .dally ∨ s.g.results = [true]))
  acked : s.w.acked = true → ∃ b, s.w.expects = some b ∧ WMsg.ack b ∈ s.toW
  won : s.w.phase = .success → s.g.phase = .dally ∨ s.g.results = [true]

theorem writeAt_end (file d : Bytes) : writeAt file file.length d = file ++ d := by
  simp [writeAt]

theorem take_flatten_prefix (cs : List Bytes) (n : Nat) : (cs.take n).flatten <+: cs.flatten :=
  ⟨(cs.drop n).flatten, by rw [← List.flatten_append, List.take_append_drop]⟩

theorem WInv.init {cs : List Bytes} (old : Bytes) : WInv cs (WSys.init old) := by
  constructor <;> simp [WSys.init]

theorem WInv.wSend {size : Nat} {cs : List Bytes} {s : WSys} (h : WInv cs s) :
    WInv cs (s.step size cs .wSend) := by
  refine { h with data := ?_ }
  intro b d hb
  simp only [WSys.step, List.mem_append, Option.mem_toList] at hb
  rcases hb with hb | hb
  · exact h.data b d hb
  · unfold Writer.emits at hb
    cases hp : s.w.phase with
    | asking => rw [hp] at hb; simp at hb
    | success => rw [hp] at hb; simp at hb
    | failed => rw [hp] at hb; simp at hb
    | serving i =>
      rw [hp] at hb
      simp only [Option.map_eq_some_iff, WMsg.data.injEq] at hb
      obtain ⟨d', h1, rfl, rfl⟩ := hb
      exact ⟨(h.serving i hp).1, h1⟩

theorem WInv.wAdvance {size : Nat} {cs : List Bytes} (hp : 0 < cs.length) {s : WSys} (h : WInv cs s) :
    WInv cs (s.step size cs .wAdvance) := by
  simp only [WSys.step, Writer.advance]
  by_cases ha : s.w.acked = true
  · rw [if_pos ha]
    obtain ⟨b, hb, hm⟩ := h.acked ha
    cases hph : s.w.phase with
    | success => exact h
    | failed => exact h
    | asking =>
      refine { h with serving := ?_, acked := ?_, won := ?_ }
      · intro i hi; simp only [WPhase.serving.injEq] at hi; omega
      · intro hi; cases hi
      · intro hi; cases hi
    | serving i =>
      simp only
      have hi := h.serving i hph
      by_cases h1 : i + 1 > cs.length
      · rw [if_pos h1]
        refine { h with serving := ?_, acked := ?_, won := ?_ }
        · intro i hi; cases hi
        · intro hi; cases hi
        · intro _
          have hbi : b = i := by
            unfold Writer.expects at hb
            rw [hph] at hb
            simpa using hb.symm
          exact (h.acks b hm).2 (by omega)
      · rw [if_neg h1]
        by_cases h2 : i + 1 < 2 ^ 16
        · rw [if_pos h2]
          refine { h with serving := ?_, acked := ?_, won := ?_ }
          · intro j hj; simp only [WPhase.serving.injEq] at hj; omega
          · intro hi; cases hi
          · intro hi; cases hi
        · rw [if_neg h2]
          refine { h with serving := ?_, acked := ?_, won := ?_ }
          · intro i hi; cases hi
          · intro hi; cases hi
          · intro hi; cases hi
  · rw [if_neg ha]; exact h

theorem WInv.wTimeout {size : Nat} {cs : List Bytes} {s : WSys} (h : WInv cs s) :
    WInv cs (s.step size cs .wTimeout) := by
  have key : WInv cs { s with w := ⟨.failed, false⟩ } := by
    refine { h with serving := ?_, acked := ?_, won := ?_ }
    · intro i hi; cases hi
    · intro hi; cases hi
    · intro hi; cases hi
  simp only [WSys.step, Writer.timeout]
  by_cases ha : s.w.acked = true
  · rw [if_pos ha]; exact h
  · rw [if_neg ha]
    cases hph : s.w.phase with
    | asking => exact key
    | serving i => exact key
    | success => exact h
    | failed => exact h

theorem WInv.gSend {size : Nat} {cs : List Bytes} {s : WSys} (h : WInv cs s) :
    WInv cs (s.step size cs .gSend) := by
  have hmem : ∀ m, m ∈ (s.step size cs .gSend).toW ↔ m ∈ s.toW ∨ s.g.emits = some m := by
    intro m; simp [WSys.step]
  have hidle : s.g.phase = .idle → (s.step size cs .gSend).toW = s.toW := by
    intro hp; simp [WSys.step, Ingest.emits, hp]
  refine ⟨h.data, h.serving, h.one, ?_, ⟨h.queue.1, ?_⟩, h.idx, h.busy, h.ev, h.wait, h.dally, h.over, ?_, ?_,
    h.won⟩
  · intro h0
    obtain ⟨a, b, c, d⟩ := h.fresh h0
    exact ⟨a, b, c, by rw [hidle b]; exact d⟩
  · intro h1
    obtain ⟨a, b, c, d⟩ := h.queue.2 h1
    exact ⟨a, b, by rw [hidle a]; exact c, d⟩
  · intro b hb
    rcases (hmem _).mp hb with hb | hb
    · exact h.acks b hb
    · unfold Ingest.emits at hb
      cases hp : s.g.phase with
      | idle => rw [hp] at hb; cases hb
      | waiting =>
        rw [hp] at hb
        simp only [Option.some.injEq, WMsg.ack.injEq] at hb
        have := h.idx (by rw [hp]; exact fun e => by cases e)
        exact ⟨by omega, fun e => by omega⟩
      | dally =>
        rw [hp] at hb
        simp only [Option.some.injEq, WMsg.ack.injEq] at hb
        have := (h.dally hp).2.1
        exact ⟨by omega, fun _ => Or.inl hp⟩
  · intro ha
    obtain ⟨b, h1, h2⟩ := h.acked ha
    exact ⟨b, h1, (hmem _).mpr (Or.inl h2)⟩

theorem WInv.gStart {size : Nat} {cs : List Bytes} (hp : 0 < cs.length) {s : WSys} (h : WInv cs s) :
    WInv cs (s.step size cs .gStart) := by
  simp only [WSys.step, Ingest.start]
  by_cases hc : s.g.phase = .idle ∧ s.g.queue ≠ 0
  · rw [if_pos hc]
    have hq : s.g.queue = 1 := by have := h.queue.1; omega
    obtain ⟨a, b, c, d⟩ := h.queue.2 hq
    have hns : s.asked ≠ 0 := by
      intro h0; have := (h.fresh h0).1; omega
    refine ⟨h.data, h.serving, h.one, ?_, ?_, ?_, ?_, ?_, ?_, ?_, ?_, ?_, ?_, ?_⟩
    · intro h0; exact absurd h0 hns
    · refine ⟨by show s.g.queue - 1 ≤ 1; omega, ?_⟩
      intro h1; simp only at h1; omega
    · intro _; exact ⟨Nat.le_refl _, hp⟩
    · intro _; exact b
    · intro _ hev; cases hev
    · intro _; exact ⟨rfl, rfl⟩
    · intro hd; cases hd
    · intro _ hi; cases hi
    · intro x hx
      have hx' : WMsg.ack x ∈ s.toW := hx
      rw [c] at hx'; cases hx'
    · exact h.acked
    · intro hw
      rcases h.won hw with hw | hw
      · rw [a] at hw; cases hw
      · rw [b] at hw; cases hw
  · rw [if_neg hc]; exact h

/-- Changes of the server while it waits, ending its task without success. -/
theorem WInv.giveUp {cs : List Bytes} {s : WSys} (h : WInv cs s)
    (hw : s.g.phase = .waiting) (g : Ingest) (hph : g.phase = .idle)
    (hq : g.queue = s.g.queue) (hr : g.results = [false]) (hf : g.file <+: cs.flatten) :
    WInv cs { s with g := g } := by
  have hni : s.g.phase ≠ .idle := by rw [hw]; exact fun e => by cases e
  have hres := h.busy hni
  have hns : s.asked ≠ 0 := by
    intro h0; exact hni (h.fresh h0).2.1
  have hnq : s.g.queue = 0 := by
    have := h.queue.1
    by_cases h1 : s.g.queue = 1
    · exact absurd (h.queue.2 h1).1 hni
    · omega
  have hna : ¬ (s.g.phase = .dally ∨ s.g.results = [true]) := by
    rw [hw, hres]; simp
  refine ⟨h.data, h.serving, h.one, ?_, ?_, ?_, ?_, ?_, ?_, ?_, ?_, ?_, h.acked, ?_⟩
  · intro h0; exact absurd h0 hns
  · refine ⟨by show g.queue ≤ 1; omega, ?_⟩
    intro h1; simp only at h1; omega
  · intro hx; exact absurd hph hx
  · intro hx; exact absurd hph hx
  · intro hx; rw [hph] at hx; cases hx
  · intro hx; rw [hph] at hx; cases hx
  · intro hx; rw [hph] at hx; cases hx
  · intro _ _ _; exact Or.inr ⟨hr, hf⟩
  · intro b hb
    obtain ⟨h1, h2⟩ := h.acks b hb
    exact ⟨h1, fun e => absurd (h2 e) hna⟩
  · intro hx; exact absurd (h.won hx) hna

theorem WInv.gWake {size : Nat} {cs : List Bytes} (hc : Blocks size cs) {s : WSys} (h : WInv cs s) :
    WInv cs (s.step size cs .gWake) := by
  simp only [WSys.step, Ingest.wake]
  by_cases hw : s.g.phase = .waiting ∧ s.g.ev = true
  · rw [if_pos hw]
    have hni : s.g.phase ≠ .idle := by rw [hw.1]; exact fun e => by cases e
    have hres := h.busy hni
    have hi := h.idx hni
    have hns : s.asked ≠ 0 := by
      intro h0; exact hni (h.fresh h0).2.1
    have hnq : s.g.queue = 0 := by
      have := h.queue.1
      by_cases h1 : s.g.queue = 1
      · exact absurd (h.queue.2 h1).1 hni
      · omega
    have hna : ¬ (s.g.phase = .dally ∨ s.g.results = [true]) := by
      rw [hw.1, hres]; simp
    obtain ⟨hf, hpos⟩ := h.wait hw.1
    have hlt : s.g.idx - 1 < cs.length := by omega
    have hg : cs[s.g.idx - 1]? = some cs[s.g.idx - 1] := List.getElem?_eq_getElem hlt
    rw [h.ev hw.1 hw.2, hg]
    simp only
    have htk := take_succ_flatten cs (s.g.idx - 1) _ hg
    rw [show s.g.idx - 1 + 1 = s.g.idx by omega] at htk
    have hfull := hc.full (s.g.idx - 1) _ hg
    have hwr : writeAt s.g.file s.g.pos cs[s.g.idx - 1] = (cs.take s.g.idx).flatten := by
      rw [hpos, writeAt_end, hf, ← htk]
    by_cases hbig : size < (cs[s.g.idx - 1]).length
    · rw [if_pos hbig]
      exact h.giveUp hw.1 _ rfl rfl (by simp [hres]) (by rw [hf]; exact take_flatten_prefix _ _)
    · rw [if_neg hbig]
      by_cases hle : size ≤ (cs[s.g.idx - 1]).length
      · rw [if_pos hle]
        have hne : s.g.idx ≠ cs.length := by
          intro e
          have := hfull.mpr (by omega)
          omega
        refine ⟨h.data, h.serving, h.one, ?_, ?_, ?_, ?_, ?_, ?_, ?_, ?_, ?_, h.acked, ?_⟩
        · intro h0; exact absurd h0 hns
        · refine ⟨by show s.g.queue ≤ 1; omega, ?_⟩
          intro h1; simp only at h1; omega
        · intro _; simp only; omega
        · intro _; exact hres
        · intro _ hev; cases hev
        · intro _
          simp only
          refine ⟨by rw [hwr]; simp, ?_⟩
          rw [hpos, writeAt_end, List.length_append]
        · intro hd; simp only [hw.1] at hd; cases hd
        · intro _ hd; simp only [hw.1] at hd; cases hd
        · intro b hb
          obtain ⟨h1, h2⟩ := h.acks b hb
          exact ⟨h1, fun e => absurd (h2 e) hna⟩
        · intro hx; exact absurd (h.won hx) hna
      · rw [if_neg hle]
        have heq : s.g.idx = cs.length := by
          have := hfull.mp (by omega); omega
        have hwr2 : writeAt s.g.file s.g.pos cs[s.g.idx - 1] = cs.flatten := by
          rw [hwr, heq, List.take_length]
        by_cases hpos0 : 0 < s.g.pos + (cs[s.g.idx - 1]).length
        · rw [if_pos hpos0]
          have hlen : (writeAt s.g.file s.g.pos cs[s.g.idx - 1]).length =
              s.g.pos + (cs[s.g.idx - 1]).length := by
            rw [hpos, writeAt_end, List.length_append]
          refine ⟨h.data, h.serving, h.one, ?_, ?_, ?_, ?_, ?_, ?_, ?_, ?_, ?_, h.acked, ?_⟩
          · intro h0; exact absurd h0 hns
          · refine ⟨by show s.g.queue ≤ 1; omega, ?_⟩
            intro h1; simp only at h1; omega
          · intro _; exact hi
          · intro _; exact hres
          · intro hx; cases hx
          · intro hx; cases hx
          · intro _; exact ⟨hwr2, heq, by simp only; rw [hlen]; exact hpos0⟩
          · intro _ hx; cases hx
          · intro b hb
            obtain ⟨h1, h2⟩ := h.acks b hb
            exact ⟨h1, fun e => Or.inl rfl⟩
          · intro hx; exact Or.inl rfl
        · rw [if_neg hpos0]
          exact h.giveUp hw.1 _ rfl rfl (by simp [hres]) (by simp only; rw [hwr2]; exact List.prefix_rfl)
  · rw [if_neg hw]; exact h

theorem WInv.gTimeout {size : Nat} {cs : List Bytes} {s : WSys} (h : WInv cs s) :
    WInv cs (s.step size cs .gTimeout) := by
  simp only [WSys.step, Ingest.timeout]
  by_cases hw : s.g.phase = .waiting ∧ s.g.ev = false
  · rw [if_pos hw]
    have hres := h.busy (by rw [hw.1]; exact fun e => by cases e)
    exact h.giveUp hw.1 _ rfl rfl (by simp [hres])
      (by simp only; rw [(h.wait hw.1).1]; exact take_flatten_prefix _ _)
  · rw [if_neg hw]; exact h

theorem WInv.gFinish {size : Nat} {cs : List Bytes} {s : WSys} (h : WInv cs s) :
    WInv cs (s.step size cs .gFinish) := by
  simp only [WSys.step, Ingest.finish]
  by_cases hw : s.g.phase = .dally
  · rw [if_pos hw]
    have hni : s.g.phase ≠ .idle := by rw [hw]; exact fun e => by cases e
    have hres := h.busy hni
    have hns : s.asked ≠ 0 := by
      intro h0; exact hni (h.fresh h0).2.1
    have hnq : s.g.queue = 0 := by
      have := h.queue.1
      by_cases h1 : s.g.queue = 1
      · exact absurd (h.queue.2 h1).1 hni
      · omega
    have ht : s.g.results ++ [true] = [true] := by rw [hres]; rfl
    refine ⟨h.data, h.serving, h.one, ?_, ?_, ?_, ?_, ?_, ?_, ?_, ?_, ?_, h.acked, ?_⟩
    · intro h0; exact absurd h0 hns
    · refine ⟨by show s.g.queue ≤ 1; omega, ?_⟩
      intro h1; simp only at h1; omega
    · intro hx; exact absurd rfl hx
    · intro hx; exact absurd rfl hx
    · intro hx; cases hx
    · intro hx; cases hx
    · intro hx; cases hx
    · intro _ _ _; exact Or.inl ⟨ht, (h.dally hw).1, (h.dally hw).2.2⟩
    · intro b hb; exact ⟨(h.acks b hb).1, fun _ => Or.inr ht⟩
    · intro _; exact Or.inr ht
  · rw [if_neg hw]; exact h

theorem WInv.deliverW {size : Nat} {cs : List Bytes} {s : WSys} (h : WInv cs s) (m : WMsg) :
    WInv cs (s.step size cs (.deliverW m)) := by
  simp only [WSys.step]
  by_cases hm : m ∈ s.toW
  · rw [if_pos hm]
    cases m with
    | wrq => exact h
    | data b d => exact h
    | ack b =>
      simp only [Writer.handle]
      by_cases he : s.w.expects = some b
      · rw [if_pos he]
        exact { h with acked := fun _ => ⟨b, he, hm⟩ }
      · rw [if_neg he]; exact h
  · rw [if_neg hm]; exact h

theorem WInv.deliverG {size : Nat} {cs : List Bytes} {s : WSys} (h : WInv cs s) (m : WMsg)
    (hone : (s.step size cs (.deliverG m)).asked ≤ 1) : WInv cs (s.step size cs (.deliverG m)) := by
  simp only [WSys.step] at hone ⊢
  by_cases hm : m ∈ s.toG
  · rw [if_pos hm] at hone ⊢
    cases m with
    | ack b => exact h
    | wrq =>
      simp only [if_true] at hone ⊢
      obtain ⟨a, b, c, d⟩ := h.fresh (by omega)
      refine ⟨h.data, h.serving, hone, ?_, ?_, ?_, ?_, ?_, ?_, ?_, ?_, ?_, h.acked, ?_⟩
      · intro h0; simp only at h0; omega
      · refine ⟨by show s.g.queue + 1 ≤ 1; omega, fun _ => ⟨b, c, d, rfl⟩⟩
      · intro hx; exact absurd b hx
      · intro hx; exact absurd b hx
      · intro hx; simp only [Ingest.handle, b] at hx; cases hx
      · intro hx; simp only [Ingest.handle, b] at hx; cases hx
      · intro hx; simp only [Ingest.handle, b] at hx; cases hx
      · intro _ _ hq; simp only [Ingest.handle] at hq; omega
      · intro x hx
        have hx' : WMsg.ack x ∈ s.toW := hx
        rw [d] at hx'; cases hx'
      · intro hx
        rcases h.won hx with hx | hx
        · rw [b] at hx; cases hx
        · rw [c] at hx; cases hx
    | data b d =>
      simp only [Ingest.handle, reduceCtorEq, if_false]
      by_cases ha : s.g.awaiting b = true
      · rw [if_pos ha]
        refine ⟨h.data, h.serving, h.one, h.fresh, h.queue, h.idx, h.busy, ?_, h.wait, h.dally, h.over, h.acks,
          h.acked, h.won⟩
        intro hp hev
        simp only at hp
        simp only [Bool.or_eq_true, Bool.and_eq_true, beq_iff_eq] at hev ⊢
        by_cases hb : b = s.g.idx
        · subst hb
          simp [(h.data _ d hm).2]
        · rcases hev with hev | hev
          · rw [if_neg (fun e => hb e.symm)]
            exact h.ev hp hev
          · exact absurd hev.2 hb
      · rw [if_neg ha]; exact h
  · rw [if_neg hm]; exact h

theorem asked_mono (size : Nat) (cs : List Bytes) (s : WSys) (steps : List WStep) :
    s.asked ≤ (s.run size cs steps).asked := by
  induction steps generalizing s with
  | nil => exact Nat.le_refl _
  | cons st steps ih =>
    refine Nat.le_trans ?_ (ih (s.step size cs st))
    cases st <;> simp only [WSys.step, Nat.le_refl]
    · split <;> simp
    · split
      · exact Nat.le_add_right _ _
      · exact Nat.le_refl _

theorem WInv.run {size : Nat} {cs : List Bytes} (hc : Blocks size cs) (steps : List WStep) {s : WSys}
    (h : WInv cs s) (hone : (s.run size cs steps).asked ≤ 1) : WInv cs (s.run size cs steps) := by
  induction steps generalizing s with
  | nil => exact h
  | cons st steps ih =>
    have h1 : (s.step size cs st).asked ≤ 1 :=
      Nat.le_trans (asked_mono size cs (s.step size cs st) steps) hone
    refine ih ?_ hone
    cases st with
    | wSend => exact h.wSend
    | wAdvance => exact h.wAdvance hc.pos
    | wTimeout => exact h.wTimeout
    | gSend => exact h.gSend
    | gStart => exact h.gStart hc.pos
    | gWake => exact h.gWake hc
    | gTimeout => exact h.gTimeout
    | gFinish => exact h.gFinish
    | deliverW m => exact h.deliverW m
    | deliverG m => exact h.deliverG m h1

/-- C64, for executions in which the write request is delivered at most once (its repetitions and
duplicates are lost), under any loss, duplication, reordering and delay of everything else: once the
request arrived the server's file is a prefix of the source; if either side reports success the file
is the source. -/
theorem C64_write_partial (size : Nat) (hs : 0 < size) (source old : Bytes) (steps : List WStep)
    (hone : ((WSys.init old).run size (chunks size source) steps).asked ≤ 1) :
    let s := (WSys.init old).run size (chunks size source) steps
    (s.asked = 1 → s.g.file <+: source) ∧
    (true ∈ s.g.results → s.g.file = source) ∧
    (s.w.phase = .success → s.g.file = source) := by
  obtain ⟨hb, hf⟩ := blocks_chunks size source hs
  have h := (WInv.init old).run hb steps hone
  dsimp only
  generalize (WSys.init old).run size (chunks size source) steps = s at h
  have hover : true ∈ s.g.results → s.g.file = source := by
    intro ht
    have hid : s.g.phase = .idle := by
      apply Classical.byContradiction
      intro hn
      rw [h.busy hn] at ht; cases ht
    have hq : s.g.queue = 0 := by
      have := h.queue.1
      by_cases h1 : s.g.queue = 1
      · rw [(h.queue.2 h1).2.1] at ht; cases ht
      · omega
    have ha : s.asked = 1 := by
      have := h.one
      by_cases h0 : s.asked = 0
      · rw [(h.fresh h0).2.2.1] at ht; cases ht
      · omega
    rcases h.over ha hid hq with ho | ho
    · rw [ho.2.1, hf]
    · rw [ho.1] at ht; simp at ht
  refine ⟨?_, hover, ?_⟩
  · intro ha
    cases hp : s.g.phase with
    | waiting => 
      rw [(h.wait hp).1]
      have := take_flatten_prefix (chunks size source) (s.g.idx - 1)
      rwa [hf] at this
    | dally => rw [(h.dally hp).1, hf]; exact List.prefix_rfl
    | idle =>
      by_cases hq : s.g.queue = 0
      · rcases h.over ha hp hq with ho | ho
        · rw [ho.2.1, hf]; exact List.prefix_rfl
        · rw [← hf]; exact ho.2
      · have := h.queue.1
        rw [(h.queue.2 (by omega)).2.2.2]
        exact List.nil_prefix
  · intro hw
    rcases h.won hw with hw | hw
    · rw [(h.dally hw).1, hf]
    · exact hover (by rw [hw]; simp)

/-- C64 in full fails for the empty file: neither side ever reports success, although the file was
created. -/
theorem C64_empty_fails (size : Nat) (hs : 0 < size) (old : Bytes) (steps : List WStep)
    (hone : ((WSys.init old).run size (chunks size []) steps).asked ≤ 1) :
    let s := (WSys.init old).run size (chunks size []) steps
    s.w.phase ≠ .success ∧ true ∉ s.g.results := by
  obtain ⟨hb, hf⟩ := blocks_chunks size [] hs
  have h := (WInv.init old).run hb steps hone
  dsimp only
  generalize (WSys.init old).run size (chunks size []) steps = s at h
  have hnd : s.g.phase ≠ .dally := by
    intro hd
    have := h.dally hd
    rw [hf] at this
    rw [this.1] at this
    simp at this
  have hnt : true ∉ s.g.results := by
    intro ht
    have hid : s.g.phase = .idle := by
      apply Classical.byContradiction
      intro hn
      rw [h.busy hn] at ht; cases ht
    have hq : s.g.queue = 0 := by
      have := h.queue.1
      by_cases h1 : s.g.queue = 1
      · rw [(h.queue.2 h1).2.1] at ht; cases ht
      · omega
    have ha : s.asked = 1 := by
      have := h.one
      by_cases h0 : s.asked = 0
      · rw [(h.fresh h0).2.2.1] at ht; cases ht
      · omega
    rcases h.over ha hid hq with ho | ho
    · have := ho.2.2
      rw [ho.2.1, hf] at this
      simp at this
    · rw [ho.1] at ht; simp at ht
  refine ⟨?_, hnt⟩
  intro hw
  rcases h.won hw with hw | hw
  · exact hnd hw
  · exact hnt (by rw [hw]; simp)

/-- C64 in full fails when a request is repeated: from any state in which the request has been sent
(it is repeated every 0.2 s until answered, and the network may duplicate it), delivering it once more
empties the file, even after both sides reported success. -/
theorem C64_duplicate_fails (size : Nat) (cs : List Bytes) (s : WSys) (h : WMsg.wrq ∈ s.toG) :
    (s.step size cs (.deliverG .wrq)).g.file = [] ∧
    (s.step size cs (.deliverG .wrq)).w = s.w ∧
    (s.step size cs (.deliverG .wrq)).g.results = s.g.results := by
  simp [WSys.step, h, Ingest.handle]

/-! ### Success is possible -/

/-- The client sends block `k + 1` while the server waits for it. -/
structure Mid (cs : List Bytes) (k : Nat) (s : WSys) : Prop where
  w : s.w = ⟨.serving (k + 1), false⟩
  phase : s.g.phase = .waiting
  idx : s.g.idx = k + 1
  awaiting : s.g.awaiting (k + 1) = true
  ev : s.g.ev = false
  pos : s.g.pos = ((cs.take k).map List.length).sum
  asked : s.asked = 1
  sent : WMsg.wrq ∈ s.toG

theorem mid_step {size : Nat} {cs : List Bytes} (hc : Blocks size cs)
    (hmax : ∀ d ∈ cs, d.length ≤ size) (hne : 0 < (cs.map List.length).sum) (k : Nat) (s : WSys)
    (h : Mid cs k s) (hlt : k < cs.length) (hsm : cs.length < 2 ^ 16) :
    let t := s.run size cs [.wSend, .deliverG (.data (k + 1) cs[k]), .gWake, .gSend,
      .deliverW (.ack (k + 1)), .wAdvance]
    if k + 1 = cs.length then t.w.phase = .success ∧ t.g.phase = .dally ∧ t.asked = 1 ∧ WMsg.wrq ∈ t.toG
    else Mid cs (k + 1) t := by
  obtain ⟨w, ⟨queue, phase, idx, awaiting, blocks, ev, pos, file, results⟩, toG, toW, asked⟩ := s
  obtain ⟨h1, h2, h3, h4, h5, h6, h7, h8⟩ := h
  simp only at h1 h2 h3 h4 h5 h6 h7 h8
  subst h1; subst h2; subst h3; subst h5; subst h7
  have hg : cs[k]? = some cs[k] := List.getElem?_eq_getElem hlt
  have hfull := hc.full k _ hg
  have hm : ¬ size < (cs[k]).length := by
    have := hmax _ (List.mem_of_getElem? hg); omega
  have hsum : ((cs.take (k + 1)).map List.length).sum = pos + (cs[k]).length := by
    rw [List.take_add_one, hg, h6, List.map_append, List.sum_append]; simp [-List.map_take]
  by_cases he : k + 1 = cs.length
  · have hl : (cs[k]).length < size := hfull.mpr he
    have hl' : ¬ size ≤ (cs[k]).length := by omega
    have hp : 0 < pos + (cs[k]).length := by
      rw [← hsum, he, List.take_length]; exact hne
    simp only [if_pos he]
    simp [WSys.run, WSys.step, Writer.emits, Ingest.handle, Ingest.wake, Ingest.emits, Writer.handle,
      Writer.expects, Writer.advance, h4, hg, hm, hl', hp, h8]
    rw [if_pos (by omega)]
  · have hl' : size ≤ (cs[k]).length := by
      apply Classical.byContradiction
      intro hn
      exact he (hfull.mp (by omega))
    simp only [if_neg he]
    have hle2 : ¬ (cs.length < k + 1 + 1) := by omega
    have hsm2 : k + 1 + 1 < 65536 := by omega
    simp [WSys.run, WSys.step, Writer.emits, Ingest.handle, Ingest.wake, Ingest.emits, Writer.handle,
      Writer.expects, Writer.advance, h4, hg, hm, hl', hle2, hsm2]
    refine ⟨rfl, rfl, rfl, by simp, rfl, hsum.symm, rfl, by simp [h8]⟩

theorem wrun_append (size : Nat) (cs : List Bytes) (s : WSys) (a b : List WStep) :
    s.run size cs (a ++ b) = (s.run size cs a).run size cs b := by
  simp [WSys.run]

theorem mid_finish {size : Nat} {cs : List Bytes} (hc : Blocks size cs)
    (hmax : ∀ d ∈ cs, d.length ≤ size) (hne : 0 < (cs.map List.length).sum)
    (hsm : cs.length < 2 ^ 16) (n k : Nat) (hn : k + n + 1 = cs.length) (s : WSys)
    (h : Mid cs k s) : ∃ steps, (s.run size cs steps).w.phase = .success ∧
      (s.run size cs steps).g.phase = .dally ∧ (s.run size cs steps).asked = 1 ∧
      WMsg.wrq ∈ (s.run size cs steps).toG := by
  induction n generalizing k s with
  | zero =>
    have := mid_step hc hmax hne k s h (by omega) hsm
    simp only [show k + 1 = cs.length by omega, if_true] at this
    exact ⟨_, this⟩
  | succ n ih =>
    have := mid_step hc hmax hne k s h (by omega) hsm
    simp only [show ¬ (k + 1 = cs.length) by omega, if_false] at this
    obtain ⟨steps, hs⟩ := ih (k + 1) (by omega) _ this
    exact ⟨_ ++ steps, by rw [wrun_append]; exact hs⟩

theorem finishes (size : Nat) (hs : 0 < size) (source old : Bytes) (hne : source ≠ [])
    (hl : (chunks size source).length < 2 ^ 16) :
    ∃ steps, ((WSys.init old).run size (chunks size source) steps).w.phase = .success ∧
      ((WSys.init old).run size (chunks size source) steps).g.results = [true] ∧
      ((WSys.init old).run size (chunks size source) steps).asked = 1 ∧
      WMsg.wrq ∈ ((WSys.init old).run size (chunks size source) steps).toG := by
  obtain ⟨hb, hf⟩ := blocks_chunks size source hs
  obtain ⟨-, init, last, he, hi, hlast, -, -⟩ := C38_chunks size source hs
  have hmax : ∀ d ∈ chunks size source, d.length ≤ size := by
    intro d hd
    rw [he] at hd
    rcases List.mem_append.mp hd with hd | hd
    · exact Nat.le_of_eq (hi d hd)
    · rw [List.mem_singleton.mp hd]; omega
  have hsum : 0 < ((chunks size source).map List.length).sum := by
    rw [← List.length_flatten, hf]
    exact List.length_pos_iff.mpr hne
  generalize chunks size source = cs at *
  have hp := hb.pos
  have hM : Mid cs 0 ((WSys.init old).run size cs
      [.wSend, .deliverG .wrq, .gStart, .gSend, .deliverW (.ack 0), .wAdvance]) := by
    refine ⟨?_, ?_, ?_, ?_, ?_, ?_, ?_, ?_⟩ <;>
      simp [WSys.run, WSys.step, WSys.init, Writer.emits, Ingest.handle, Ingest.start, Ingest.emits,
        Writer.handle, Writer.expects, Writer.advance]
  obtain ⟨steps, h1, h2, h3, h4⟩ := mid_finish hb hmax hsum hl (cs.length - 1) 0 (by omega) _ hM
  rw [← wrun_append] at h1 h2 h3 h4
  generalize hst : [WStep.wSend, .deliverG .wrq, .gStart, .gSend, .deliverW (.ack 0), .wAdvance] ++ steps
    = all at h1 h2 h3 h4
  have hinv := (WInv.init old).run hb all (by omega)
  have hres := hinv.busy (by rw [h2]; exact fun e => by cases e)
  refine ⟨all ++ [.gFinish], ?_⟩
  rw [wrun_append]
  generalize (WSys.init old).run size cs all = s at h1 h2 h3 h4 hres
  have e : s.run size cs [.gFinish] = { s with g := { s.g with phase := .idle, results := s.g.results ++ [true] } } := by
    simp [WSys.run, WSys.step, Ingest.finish, h2]
  rw [e]
  exact ⟨h1, by simp [hres], h3, h4⟩

/-- C64. Success is possible: for every non-empty file of fewer than 2^16 blocks some schedule delivers
one request and ends with success on both sides (so C64_write_partial is not vacuous). -/
theorem C64_completes (size : Nat) (hs : 0 < size) (source old : Bytes) (hne : source ≠ [])
    (hl : (chunks size source).length < 2 ^ 16) :
    ∃ steps, let s := (WSys.init old).run size (chunks size source) steps
      s.w.phase = .success ∧ s.g.results = [true] ∧ s.asked = 1 ∧ s.g.file = source := by
  obtain ⟨steps, h1, h2, h3, -⟩ := finishes size hs source old hne hl
  refine ⟨steps, h1, h2, h3, ?_⟩
  exact (C64_write_partial size hs source old steps (by omega)).2.2 h1

/-- C64 in full fails: for every non-empty file of fewer than 2^16 blocks there is an execution in
which both sides report success and the server's file ends up empty, because the request arrived a
second time. -/
theorem C64_lost_fails (size : Nat) (hs : 0 < size) (source old : Bytes) (hne : source ≠ [])
    (hl : (chunks size source).length < 2 ^ 16) :
    ∃ steps, let s := (WSys.init old).run size (chunks size source) steps
      s.w.phase = .success ∧ s.g.results = [true] ∧ s.g.file = [] := by
  obtain ⟨steps, h1, h2, -, h4⟩ := finishes size hs source old hne hl
  refine ⟨steps ++ [.deliverG .wrq], ?_⟩
  dsimp only
  rw [wrun_append]
  have := C64_duplicate_fails size (chunks size source) _ h4
  refine ⟨?_, ?_, this.1⟩
  · show ((WSys.init old).run size (chunks size source) steps |>.step size (chunks size source)
      (.deliverG .wrq)).w.phase = .success
    rw [this.2.1]; exact h1
  · show ((WSys.init old).run size (chunks size source) steps |>.step size (chunks size source)
      (.deliverG .wrq)).g.results = [true]
    rw [this.2.2]; exact h2

end Verif.Tftp.Writes
