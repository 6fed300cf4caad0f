import Verif.Tftp.Chunks
import Batteries.Tactic.Init
/-!
C39: a TFTP read (`request_read`, `handle_data`, `serve_file`) under an arbitrary network.

The network is a pair of growing lists of everything ever sent; a step may deliver any datagram of
either list at any time, any number of times (loss, duplication, reordering, delay). The code
between two suspension points is one step. `repeat_until(f, event, ...)` calls `f` any number of
times and ends with `True` when the event is set, or with `False` at a timeout when it is not.
The block size is a parameter (512 in the code).
-/
namespace Verif.Tftp

/-- Datagrams of a read: request, data block, acknowledgement (encoding: C40). Error datagrams only
produce log entries and are left out. -/
inductive Msg where
  | rrq
  | data (block : Nat) (d : Bytes)
  | ack (block : Nat)
  deriving DecidableEq

/-- Where `request_read` is suspended. -/
inductive Phase where
  | first | next | done | failed
  deriving DecidableEq

/-- The reader: locals of `request_read` (__init__.py 33–121) and its endpoint's dictionaries
(endpoint.py 62–66). `ev` is the event the reader is waiting on. -/
structure Reader where
  phase : Phase
  idx : Nat
  awaiting : Nat → Bool
  blocks : Nat → Option Bytes
  ev : Bool
  out : Bytes

/-- Start of `request_read`, __init__.py 43–50 with `_await_first_block` (base.py 150–163), on an
endpoint whose dictionaries hold whatever earlier transfers left behind. -/
def Reader.start (awaiting : Nat → Bool) (blocks : Nat → Option Bytes) : Reader where
  phase := .first
  idx := 1
  awaiting := fun b => b == 1 || awaiting b
  blocks := blocks
  ev := false
  out := []

/-- `handle_data`, endpoint.py 111–126. -/
def Reader.handleData (r : Reader) (block : Nat) (d : Bytes) : Reader :=
  if r.awaiting block then
    { r with
      blocks := fun b => if b = block then some d else r.blocks b
      ev := r.ev || (block == r.idx)
      awaiting := fun b => b != block && r.awaiting b }
  else r

/-- Data datagrams of a read go to `handle_data`; the others do not concern the reader. -/
def Reader.handle (r : Reader) : Msg → Reader
  | .data b d => r.handleData b d
  | .rrq | .ack _ => r

/-- `write_block` and the head of the loop, __init__.py 78–101: run when the awaited event is set. A
missing block would raise `KeyError` (here: the read fails). -/
def Reader.wake (size : Nat) (r : Reader) : Reader :=
  if (r.phase = .first ∨ r.phase = .next) ∧ r.ev = true then
    match r.blocks r.idx with
    | none => { r with phase := .failed }
    | some d =>
      let blocks := fun b => if b = r.idx then none else r.blocks b
      if d.length < size then
        { r with blocks := blocks, out := r.out ++ d, phase := .done }
      else
        { r with blocks := blocks, out := r.out ++ d, phase := .next, idx := r.idx + 1, ev := false, awaiting := fun b => b == r.idx + 1 || r.awaiting b }
  else r

/-- A timeout of `repeat_until`, __init__.py 60–70 and 98–103. Only the first wait cleans up. -/
def Reader.timeout (r : Reader) : Reader :=
  if (r.phase = .first ∨ r.phase = .next) ∧ r.ev = false then
    { r with
      phase := .failed
      awaiting := if r.phase = .first then fun b => b != r.idx && r.awaiting b else r.awaiting }
  else r

/-- What the reader (re)sends while waiting, and in the background after the end of the data,
__init__.py 45–58 and 105–116. -/
def Reader.emits (r : Reader) : Option Msg :=
  match r.phase with
  | .first => some .rrq
  | .next => some (.ack (r.idx - 1))
  | .done => some (.ack (r.idx - 1))
  | .failed => none

/-- The serving side: pending read tasks (each waits for the endpoint's lock, endpoint.py 262–275),
the block being sent, whether its acknowledgement arrived, results of finished tasks. -/
structure Server where
  queue : Nat
  cur : Option Nat
  acked : Bool
  results : List Bool

/-- Handling a datagram: `handle_read_request` of an existing file (endpoint.py 281–295) and
`handle_ack` (128–145). -/
def Server.handle (s : Server) : Msg → Server
  | .rrq => { s with queue := s.queue + 1 }
  | .ack n => if s.cur = some n then { s with acked := true } else s
  | .data .. => s

/-- A task takes the lock and starts serving, endpoint.py 232–246. -/
def Server.start (s : Server) : Server :=
  match s.cur with
  | some _ => s
  | none => if s.queue = 0 then s else { s with queue := s.queue - 1, cur := some 1, acked := false }

/-- The event of the current block is set: next block (the assertion `idx < 2**16` ends the task
with an exception) or end, endpoint.py 232–258. -/
def Server.advance (cs : List Bytes) (s : Server) : Server :=
  match s.cur with
  | none => s
  | some i =>
    if s.acked then
      if i + 1 > cs.length then { s with cur := none, acked := false, results := s.results ++ [true] }
      else if i + 1 < 2 ^ 16 then { s with cur := some (i + 1), acked := false }
      else { s with cur := none, acked := false, results := s.results ++ [false] }
    else s

/-- Timeout: the task gives up, endpoint.py 249–256. -/
def Server.timeout (s : Server) : Server :=
  match s.cur with
  | none => s
  | some _ => if s.acked then s else { s with cur := none, results := s.results ++ [false] }

/-- `chunk_sender`, endpoint.py 84–93. -/
def Server.emits (cs : List Bytes) (s : Server) : Option Msg :=
  match s.cur with
  | none => none
  | some i => (cs[i - 1]?).map (.data i)

/-- The whole system: both sides and everything ever sent in each direction. -/
structure Sys where
  rd : Reader
  srv : Server
  toSrv : List Msg
  toRd : List Msg

/-- One step of the reader, the server, or the network. -/
inductive Step where
  | rdSend | rdWake | rdTimeout
  | srvSend | srvStart | srvAdvance | srvTimeout
  | deliverRd (m : Msg)
  | deliverSrv (m : Msg)
  deriving DecidableEq

/-- The effect of a step while the file `cs` (as blocks) is served. -/
def Sys.step (size : Nat) (cs : List Bytes) (s : Sys) : Step → Sys
  | .rdSend => { s with toSrv := s.toSrv ++ s.rd.emits.toList }
  | .rdWake => { s with rd := s.rd.wake size }
  | .rdTimeout => { s with rd := s.rd.timeout }
  | .srvSend => { s with toRd := s.toRd ++ (s.srv.emits cs).toList }
  | .srvStart => { s with srv := s.srv.start }
  | .srvAdvance => { s with srv := s.srv.advance cs }
  | .srvTimeout => { s with srv := s.srv.timeout }
  | .deliverRd m => if m ∈ s.toRd then { s with rd := s.rd.handle m } else s
  | .deliverSrv m => if m ∈ s.toSrv then { s with srv := s.srv.handle m } else s

/-- An execution, oldest step first. -/
def Sys.run (size : Nat) (cs : List Bytes) (s : Sys) (steps : List Step) : Sys :=
  steps.foldl (Sys.step size cs) s

/-- The beginning: nothing sent, an idle server, a reader starting on any endpoint. -/
def Sys.init (awaiting : Nat → Bool) (blocks : Nat → Option Bytes) (results : List Bool) : Sys :=
  ⟨Reader.start awaiting blocks, ⟨0, none, false, results⟩, [], []⟩

/-! ### Invariant -/

/-- The blocks of a file: all full but the last. -/
structure Blocks (size : Nat) (cs : List Bytes) : Prop where
  pos : 0 < cs.length
  full : ∀ i d, cs[i]? = some d → (d.length < size ↔ i + 1 = cs.length)

/-- What holds of the reader and of everything sent. -/
structure Inv (cs : List Bytes) (s : Sys) : Prop where
  data : ∀ b d, Msg.data b d ∈ s.toRd → 1 ≤ b ∧ b < 2 ^ 16 ∧ cs[b - 1]? = some d
  acks : ∀ b, Msg.ack b ∈ s.toSrv → b < cs.length
  cur : ∀ i, s.srv.cur = some i → 1 ≤ i ∧ i ≤ cs.length ∧ i < 2 ^ 16
  acked : s.srv.acked = true → ∃ i, s.srv.cur = some i ∧ i < cs.length
  idx : 1 ≤ s.rd.idx ∧ s.rd.idx ≤ cs.length
  ev : s.rd.phase = .first ∨ s.rd.phase = .next → s.rd.ev = true →
    s.rd.idx < 2 ^ 16 ∧ s.rd.blocks s.rd.idx = cs[s.rd.idx - 1]?
  out : s.rd.phase ≠ .done → s.rd.out = (cs.take (s.rd.idx - 1)).flatten
  done : s.rd.phase = .done → s.rd.out = cs.flatten ∧ s.rd.idx = cs.length ∧ cs.length < 2 ^ 16
  small : s.rd.phase = .next → s.rd.idx - 1 < 2 ^ 16
  res : ∀ r, r ∈ s.srv.results → r = false

theorem Inv.handleData {cs : List Bytes} {s : Sys} (h : Inv cs s) {b : Nat} {d : Bytes}
    (hm : Msg.data b d ∈ s.toRd) : Inv cs { s with rd := s.rd.handleData b d } := by
  obtain ⟨h1, h2, h3⟩ := h.data b d hm
  unfold Reader.handleData
  by_cases ha : s.rd.awaiting b = true
  · rw [if_pos ha]
    refine ⟨h.data, h.acks, h.cur, h.acked, h.idx, ?_, h.out, h.done, h.small, h.res⟩
    intro hp hev
    simp only [Bool.or_eq_true, beq_iff_eq] at hev ⊢
    by_cases hb : b = s.rd.idx
    · subst hb
      simp [h2, h3]
    · rcases hev with hev | hev
      · obtain ⟨a1, a2⟩ := h.ev hp hev
        refine ⟨a1, ?_⟩
        rw [if_neg (fun e => hb e.symm)]
        exact a2
      · exact absurd hev hb
  · rw [if_neg ha]; exact h

theorem take_succ_flatten (cs : List Bytes) (i : Nat) (d : Bytes) (h : cs[i]? = some d) :
    (cs.take (i + 1)).flatten = (cs.take i).flatten ++ d := by
  rw [List.take_add_one, h]
  simp

theorem Inv.wake {size : Nat} {cs : List Bytes} (hc : Blocks size cs) {s : Sys} (h : Inv cs s) :
    Inv cs { s with rd := s.rd.wake size } := by
  unfold Reader.wake
  by_cases hw : (s.rd.phase = .first ∨ s.rd.phase = .next) ∧ s.rd.ev = true
  · rw [if_pos hw]
    obtain ⟨hsm, hb⟩ := h.ev hw.1 hw.2
    have hi := h.idx
    have hlt : s.rd.idx - 1 < cs.length := by omega
    have hg : cs[s.rd.idx - 1]? = some cs[s.rd.idx - 1] := List.getElem?_eq_getElem hlt
    have hnd : s.rd.phase ≠ .done := by
      intro e; rcases hw.1 with h | h <;> rw [e] at h <;> cases h
    rw [hb, hg]
    simp only
    have hout := h.out hnd
    have htk := take_succ_flatten cs (s.rd.idx - 1) _ hg
    rw [show s.rd.idx - 1 + 1 = s.rd.idx by omega] at htk
    have hfull := hc.full (s.rd.idx - 1) _ hg
    by_cases hl : (cs[s.rd.idx - 1]).length < size
    · rw [if_pos hl]
      have he : s.rd.idx = cs.length := by have := hfull.mp hl; omega
      refine ⟨h.data, h.acks, h.cur, h.acked, h.idx, ?_, ?_, ?_, ?_, h.res⟩
      · intro hp; simp only at hp; rcases hp with hp | hp <;> cases hp
      · intro hp; exact absurd rfl hp
      · intro _
        simp only
        refine ⟨?_, he, by omega⟩
        rw [hout, ← htk, he, List.take_length]
      · intro hp; cases hp
    · rw [if_neg hl]
      have hne : s.rd.idx ≠ cs.length := by
        intro e; exact hl (hfull.mpr (by omega))
      refine ⟨h.data, h.acks, h.cur, h.acked, ?_, ?_, ?_, ?_, ?_, h.res⟩
      · simp only; omega
      · intro _ hev; cases hev
      · intro _
        simp only
        rw [hout, ← htk]
        simp
      · intro hp; cases hp
      · intro _; simp only; omega
  · rw [if_neg hw]; exact h

theorem Inv.rdTimeout {cs : List Bytes} {s : Sys} (h : Inv cs s) :
    Inv cs { s with rd := s.rd.timeout } := by
  unfold Reader.timeout
  by_cases hw : (s.rd.phase = .first ∨ s.rd.phase = .next) ∧ s.rd.ev = false
  · rw [if_pos hw]
    have hnd : s.rd.phase ≠ .done := by
      intro e; rcases hw.1 with h | h <;> rw [e] at h <;> cases h
    refine ⟨h.data, h.acks, h.cur, h.acked, h.idx, ?_, fun _ => h.out hnd, ?_, ?_, h.res⟩
    · intro hp; simp only at hp; rcases hp with hp | hp <;> cases hp
    · intro hp; cases hp
    · intro hp; cases hp
  · rw [if_neg hw]; exact h

theorem Inv.step {size : Nat} {cs : List Bytes} (hc : Blocks size cs) {s : Sys} (h : Inv cs s)
    (st : Step) : Inv cs (s.step size cs st) := by
  have hp := hc.pos
  cases st with
  | rdWake => exact h.wake hc
  | rdTimeout => exact h.rdTimeout
  | rdSend =>
    refine ⟨h.data, ?_, h.cur, h.acked, h.idx, h.ev, h.out, h.done, h.small, h.res⟩
    intro b hb
    simp only [Sys.step, List.mem_append, Option.mem_toList] at hb
    rcases hb with hb | hb
    · exact h.acks b hb
    · have := h.idx
      unfold Reader.emits at hb
      cases hph : s.rd.phase <;> rw [hph] at hb <;> simp at hb <;> omega
  | srvSend =>
    refine ⟨?_, h.acks, h.cur, h.acked, h.idx, h.ev, h.out, h.done, h.small, h.res⟩
    intro b d hb
    simp only [Sys.step, List.mem_append, Option.mem_toList] at hb
    rcases hb with hb | hb
    · exact h.data b d hb
    · unfold Server.emits at hb
      cases hcur : s.srv.cur with
      | none => rw [hcur] at hb; cases hb
      | some i =>
        rw [hcur] at hb
        simp only [Option.map_eq_some_iff, Msg.data.injEq] at hb
        obtain ⟨d', h1, rfl, rfl⟩ := hb
        obtain ⟨a1, a2, a3⟩ := h.cur i hcur
        exact ⟨a1, a3, h1⟩
  | srvStart =>
    simp only [Sys.step, Server.start]
    cases hcur : s.srv.cur with
    | some i => exact h
    | none =>
      simp only
      by_cases hq : s.srv.queue = 0
      · rw [if_pos hq]; exact h
      · rw [if_neg hq]
        refine ⟨h.data, h.acks, ?_, ?_, h.idx, h.ev, h.out, h.done, h.small, h.res⟩
        · intro i hi
          simp only [Option.some.injEq] at hi
          omega
        · intro hi; cases hi
  | srvAdvance =>
    simp only [Sys.step, Server.advance]
    cases hcur : s.srv.cur with
    | none => exact h
    | some i =>
      simp only
      by_cases ha : s.srv.acked = true
      · rw [if_pos ha]
        obtain ⟨j, hj, hjl⟩ := h.acked ha
        rw [hcur] at hj
        cases hj
        rw [if_neg (by omega)]
        by_cases hs : i + 1 < 2 ^ 16
        · rw [if_pos hs]
          refine ⟨h.data, h.acks, ?_, ?_, h.idx, h.ev, h.out, h.done, h.small, h.res⟩
          · intro k hk
            simp only [Option.some.injEq] at hk
            omega
          · intro hk; cases hk
        · rw [if_neg hs]
          refine ⟨h.data, h.acks, ?_, ?_, h.idx, h.ev, h.out, h.done, h.small, ?_⟩
          · intro k hk; cases hk
          · intro hk; cases hk
          · intro r hr
            simp only [List.mem_append, List.mem_singleton] at hr
            rcases hr with hr | hr
            · exact h.res r hr
            · exact hr
      · rw [if_neg ha]; exact h
  | srvTimeout =>
    simp only [Sys.step, Server.timeout]
    cases hcur : s.srv.cur with
    | none => exact h
    | some i =>
      simp only
      by_cases ha : s.srv.acked = true
      · rw [if_pos ha]; exact h
      · rw [if_neg ha]
        refine ⟨h.data, h.acks, ?_, ?_, h.idx, h.ev, h.out, h.done, h.small, ?_⟩
        · intro k hk; cases hk
        · intro hk; exact absurd hk ha
        · intro r hr
          simp only [List.mem_append, List.mem_singleton] at hr
          rcases hr with hr | hr
          · exact h.res r hr
          · exact hr
  | deliverRd m =>
    simp only [Sys.step]
    by_cases hm : m ∈ s.toRd
    · rw [if_pos hm]
      cases m with
      | rrq => exact h
      | ack b => exact h
      | data b d => exact h.handleData hm
    · rw [if_neg hm]; exact h
  | deliverSrv m =>
    simp only [Sys.step]
    by_cases hmem : m ∈ s.toSrv
    · rw [if_pos hmem]
      cases m with
      | rrq => exact ⟨h.data, h.acks, h.cur, h.acked, h.idx, h.ev, h.out, h.done, h.small, h.res⟩
      | data b d => exact h
      | ack b =>
        simp only [Server.handle]
        by_cases hcur : s.srv.cur = some b
        · rw [if_pos hcur]
          exact ⟨h.data, h.acks, h.cur, fun _ => ⟨b, hcur, h.acks b hmem⟩, h.idx, h.ev, h.out,
            h.done, h.small, h.res⟩
        · rw [if_neg hcur]; exact h
    · rw [if_neg hmem]; exact h

theorem inv_init {cs : List Bytes} (hp : 0 < cs.length) (aw : Nat → Bool) (bl : Nat → Option Bytes) :
    Inv cs (Sys.init aw bl []) := by
  refine ⟨?_, ?_, ?_, ?_, ?_, ?_, ?_, ?_, ?_, ?_⟩
  · intro b d h; cases h
  · intro b h; cases h
  · intro i h; cases h
  · intro h; cases h
  · exact ⟨Nat.le_refl _, hp⟩
  · intro _ h; cases h
  · intro _; rfl
  · intro h; cases h
  · intro h; cases h
  · intro r h; cases h

theorem inv_run {size : Nat} {cs : List Bytes} (hc : Blocks size cs) (steps : List Step) {s : Sys}
    (h : Inv cs s) : Inv cs (s.run size cs steps) := by
  induction steps generalizing s with
  | nil => exact h
  | cons st steps ih => exact ih (h.step hc st)

theorem blocks_chunks (size : Nat) (file : Bytes) (hs : 0 < size) :
    Blocks size (chunks size file) ∧ (chunks size file).flatten = file := by
  obtain ⟨hf, init, last, he, hi, hl, -, -⟩ := C38_chunks size file hs
  refine ⟨⟨by rw [he]; simp, ?_⟩, hf⟩
  intro i d hd
  rw [he] at hd ⊢
  rw [List.length_append, List.length_singleton]
  by_cases hlt : i < init.length
  · rw [List.getElem?_append_left hlt] at hd
    have := hi d (List.mem_of_getElem? hd)
    omega
  · rw [List.getElem?_append_right (by omega)] at hd
    have hlt2 := List.getElem?_eq_some_iff.mp hd
    obtain ⟨h1, h2⟩ := hlt2
    simp only [List.length_singleton] at h1
    have : i - init.length = 0 := by omega
    simp only [this, List.getElem_cons_zero] at h2
    subst h2
    omega

/-- C39. For every file, block size, leftover endpoint state and every execution under any loss,
duplication, reordering and delay: what the reader has written is a prefix of the served file, and
when the read succeeds it is the whole file. -/
theorem C39_read (size : Nat) (hs : 0 < size) (file : Bytes) (aw : Nat → Bool)
    (bl : Nat → Option Bytes) (steps : List Step) :
    let s := (Sys.init aw bl []).run size (chunks size file) steps
    s.rd.out <+: file ∧ (s.rd.phase = .done → s.rd.out = file) := by
  obtain ⟨hb, hf⟩ := blocks_chunks size file hs
  have h := inv_run hb steps (inv_init hb.pos aw bl)
  dsimp only
  generalize (Sys.init aw bl []).run size (chunks size file) steps = s at h
  constructor
  · by_cases hd : s.rd.phase = .done
    · rw [(h.done hd).1, hf]; exact List.prefix_rfl
    · rw [h.out hd]
      refine ⟨((chunks size file).drop (s.rd.idx - 1)).flatten, ?_⟩
      rw [← List.flatten_append, List.take_append_drop, hf]
  · intro hd
    rw [(h.done hd).1, hf]

/-- C39. The reader never looks up a block that is not there (no `KeyError` in `write_block`). -/
theorem C39_no_missing_block (size : Nat) (hs : 0 < size) (file : Bytes) (aw : Nat → Bool)
    (bl : Nat → Option Bytes) (steps : List Step) :
    let s := (Sys.init aw bl []).run size (chunks size file) steps
    (s.rd.phase = .first ∨ s.rd.phase = .next) → s.rd.ev = true →
      ∃ d, s.rd.blocks s.rd.idx = some d := by
  obtain ⟨hb, -⟩ := blocks_chunks size file hs
  have h := inv_run hb steps (inv_init hb.pos aw bl)
  intro s hp hev
  have h1 := (h.ev hp hev).2
  have hlt : s.rd.idx - 1 < (chunks size file).length := by
    have hi : 1 ≤ s.rd.idx ∧ s.rd.idx ≤ (chunks size file).length := h.idx
    omega
  exact ⟨_, by rw [h1]; exact List.getElem?_eq_getElem hlt⟩

/-- What a read leaves in the endpoint's dictionaries: while it waits, at most the awaited block. -/
structure Clean (r : Reader) : Prop where
  aw : r.phase ≠ .failed → ∀ b, r.awaiting b = true → b = r.idx
  ev : r.phase ≠ .failed → r.ev = true → ∀ b, r.awaiting b = false
  bl : r.phase ≠ .failed → ∀ b, r.blocks b ≠ none → b = r.idx ∧ r.ev = true
  fin : r.phase = .done → r.ev = true ∧ ∀ b, r.blocks b = none

theorem Clean.step {size : Nat} {cs : List Bytes} {s : Sys} (h : Clean s.rd) (st : Step) :
    Clean (s.step size cs st).rd := by
  cases st with
  | rdSend => exact h
  | srvSend => exact h
  | srvStart => exact h
  | srvAdvance => exact h
  | srvTimeout => exact h
  | rdTimeout =>
    simp only [Sys.step, Reader.timeout]
    split
    · refine ⟨?_, ?_, ?_, ?_⟩ <;> intro hp <;> first | exact absurd rfl hp | cases hp
    · exact h
  | deliverSrv m =>
    simp only [Sys.step]
    split <;> exact h
  | deliverRd m =>
    simp only [Sys.step]
    split
    · cases m with
      | rrq => exact h
      | ack b => exact h
      | data b d =>
        simp only [Reader.handle, Reader.handleData]
        split
        · rename_i ha
          refine ⟨?_, ?_, ?_, ?_⟩
          · intro hp c hc
            simp only [Bool.and_eq_true] at hc
            exact h.aw hp c hc.2
          · intro hp _ c
            have hb := h.aw hp b ha
            dsimp only
            cases hc : s.rd.awaiting c with
            | false => simp
            | true => rw [h.aw hp c hc, hb]; simp
          · intro hp c hc
            have hb := h.aw hp b ha
            dsimp only at hc ⊢
            by_cases hcb : c = b
            · subst hcb; exact ⟨hb, by simp [hb]⟩
            · rw [if_neg hcb] at hc
              exact ⟨(h.bl hp c hc).1, by simp [(h.bl hp c hc).2]⟩
          · intro hp
            have hn : s.rd.phase ≠ .failed := by
              have hp' : s.rd.phase = .done := hp
              rw [hp']; decide
            have := h.ev hn (h.fin hp).1 b
            rw [this] at ha; cases ha
        · exact h
    · exact h
  | rdWake =>
    simp only [Sys.step, Reader.wake]
    split
    · rename_i hw
      have hn : s.rd.phase ≠ .failed := by
        rcases hw.1 with e | e <;> rw [e] <;> decide
      cases hb : s.rd.blocks s.rd.idx with
      | none => refine ⟨?_, ?_, ?_, ?_⟩ <;> intro hp <;> first | exact absurd rfl hp | cases hp
      | some d =>
        dsimp only
        have hbl : ∀ c, (if c = s.rd.idx then none else s.rd.blocks c) = none := by
          intro c
          by_cases hc : c = s.rd.idx
          · rw [if_pos hc]
          · rw [if_neg hc]
            cases hbc : s.rd.blocks c with
            | none => rfl
            | some x => exact absurd (h.bl hn c (by rw [hbc]; simp)).1 hc
        split
        · exact ⟨fun _ => h.aw hn, fun _ => h.ev hn, fun _ c hc => absurd (hbl c) hc, fun _ => ⟨hw.2, hbl⟩⟩
        · refine ⟨?_, ?_, fun _ c hc => absurd (hbl c) hc, ?_⟩
          · intro _ c hc
            simp only [Bool.or_eq_true, beq_iff_eq] at hc
            rcases hc with hc | hc
            · exact hc
            · rw [h.ev hn hw.2 c] at hc; cases hc
          · intro _ hc; cases hc
          · intro hc; cases hc
    · exact h

/-- C39. On an endpoint without leftovers a successful read leaves none: whatever was repeated or
delayed, no block is awaited any more and none is kept. -/
theorem C39_tidy (size : Nat) (cs : List Bytes) (steps : List Step) :
    let s := (Sys.init (fun _ => false) (fun _ => none) []).run size cs steps
    s.rd.phase = .done → (∀ b, s.rd.awaiting b = false) ∧ ∀ b, s.rd.blocks b = none := by
  have h0 : Clean (Sys.init (fun _ => false) (fun _ => none) []).rd := by
    refine ⟨?_, ?_, ?_, ?_⟩
    · intro _ b hb
      simpa [Sys.init, Reader.start] using hb
    · intro _ h; cases h
    · intro _ b hb; exact absurd rfl hb
    · intro h; cases h
  have hr : ∀ (l : List Step) (s : Sys), Clean s.rd → Clean (s.run size cs l).rd := by
    intro l
    induction l with
    | nil => exact fun _ h => h
    | cons x xs ih => exact fun s h => ih _ (h.step x)
  intro s hd
  have h := hr steps _ h0
  exact ⟨h.ev (by show s.rd.phase ≠ _; rw [hd]; decide) (h.fin hd).1, (h.fin hd).2⟩

/-- A read that gives up after the first block leaves the block it waited for registered: a late
datagram is then kept for ever, and taken for data by the next transfer. -/
theorem C39_leftover_fails (r : Reader) (hp : r.phase = .next) (hev : r.ev = false)
    (ha : r.awaiting r.idx = true) (d : Bytes) :
    r.timeout.phase = .failed ∧ (r.timeout.handleData r.idx d).blocks r.idx = some d := by
  simp [Reader.timeout, Reader.handleData, hp, hev, ha]

/-- A file of 2^16 blocks or more is never read successfully. -/
theorem C39_large_fails (size : Nat) (hs : 0 < size) (file : Bytes)
    (hl : 2 ^ 16 * size ≤ file.length + size) (aw : Nat → Bool) (bl : Nat → Option Bytes)
    (steps : List Step) :
    ((Sys.init aw bl []).run size (chunks size file) steps).rd.phase ≠ .done := by
  obtain ⟨hb, hf⟩ := blocks_chunks size file hs
  have h := inv_run hb steps (inv_init hb.pos aw bl)
  intro hd
  have hlt := (h.done hd).2.2
  obtain ⟨-, init, last, he, -, -, -, hi⟩ := C38_chunks size file hs
  rw [he, List.length_append, List.length_singleton, hi] at hlt
  have h1 : file.length / size + 1 ≤ 2 ^ 16 - 1 := by omega
  have h2 : file.length < (file.length / size + 1) * size := by
    rw [Nat.add_mul, Nat.one_mul]
    have := Nat.div_add_mod file.length size
    have := Nat.mod_lt file.length hs
    have e : size * (file.length / size) = file.length / size * size := Nat.mul_comm _ _
    omega
  have h3 : (file.length / size + 1) * size ≤ (2 ^ 16 - 1) * size := Nat.mul_le_mul_right _ h1
  have h4 : (2 ^ 16 - 1) * size = 2 ^ 16 * size - size := by rw [Nat.sub_mul, Nat.one_mul]
  omega

/-- What can happen to the server alone: any datagram, and its own steps. -/
inductive SOp where
  | msg (m : Msg) | start | advance | timeout

def Server.act (cs : List Bytes) (s : Server) : SOp → Server
  | .msg m => s.handle m
  | .start => s.start
  | .advance => s.advance cs
  | .timeout => s.timeout

def SOp.isRequest : SOp → Bool
  | .msg .rrq => true
  | _ => false

/-- Requests answered, being answered and waiting. -/
def Server.load (s : Server) : Nat := s.results.length + s.queue + s.cur.toList.length

theorem act_load (cs : List Bytes) (s : Server) (o : SOp) :
    (s.act cs o).load = s.load + if o.isRequest then 1 else 0 := by
  obtain ⟨q, c, a, r⟩ := s
  cases o with
  | msg m =>
    cases m with
    | rrq => simp [Server.act, Server.handle, Server.load, SOp.isRequest]; omega
    | ack n => simp only [Server.act, Server.handle, SOp.isRequest]; split <;> simp [Server.load]
    | data b d => simp [Server.act, Server.handle, Server.load, SOp.isRequest]
  | start =>
    cases c with
    | some i => simp [Server.act, Server.start, SOp.isRequest]
    | none =>
      simp only [Server.act, Server.start, SOp.isRequest]
      split
      · simp
      · simp [Server.load]; omega
  | advance =>
    cases c with
    | none => simp [Server.act, Server.advance, SOp.isRequest]
    | some i =>
      simp only [Server.act, Server.advance, SOp.isRequest]
      split
      · split
        · simp [Server.load]; omega
        · split <;> simp [Server.load]; omega
      · simp
  | timeout =>
    cases c with
    | none => simp [Server.act, Server.timeout, SOp.isRequest]
    | some i =>
      simp only [Server.act, Server.timeout, SOp.isRequest]
      split <;> simp [Server.load]; omega

/-- C39: every read request that reaches the server is served once: finished ones, the one in progress and those waiting
are as many as the requests received, repeated requests counted each time. -/
theorem C39_server_once (cs : List Bytes) (ops : List SOp) :
    let s := ops.foldl (Server.act cs) ⟨0, none, false, []⟩
    s.results.length + s.queue + s.cur.toList.length = ops.countP SOp.isRequest := by
  have key : ∀ (ops : List SOp) (s : Server), (ops.foldl (Server.act cs) s).load = s.load + ops.countP SOp.isRequest := by
    intro ops
    induction ops with
    | nil => intro s; rfl
    | cons o ops ih =>
      intro s
      rw [List.foldl_cons, ih, act_load, List.countP_cons]
      omega
  have := key ops ⟨0, none, false, []⟩
  simpa [Server.load] using this

/-- The acknowledgements of blocks `i + 1` to `i + n`. -/
def acksFrom (i : Nat) : Nat → List SOp
  | 0 => []
  | n + 1 => .msg (.ack (i + 1)) :: .advance :: acksFrom (i + 1) n

/-- C39: a waiting request of a file of less than `2^16` blocks is served with success when each block is acknowledged in
turn, the last one too, and the block then offered is the one after those acknowledged. -/
theorem C39_server_serves (cs : List Bytes) (h0 : cs ≠ []) (hl : cs.length < 2 ^ 16) (q : Nat) (rs : List Bool) :
    (∀ k < cs.length, ((SOp.start :: acksFrom 0 k).foldl (Server.act cs) ⟨q + 1, none, false, rs⟩).emits cs =
      (cs[k]?).map (Msg.data (k + 1))) ∧
    (SOp.start :: acksFrom 0 cs.length).foldl (Server.act cs) ⟨q + 1, none, false, rs⟩ = ⟨q, none, false, rs ++ [true]⟩ := by
  have hp : 0 < cs.length := List.length_pos_iff.mpr h0
  have hs : Server.act cs ⟨q + 1, none, false, rs⟩ .start = ⟨q, some 1, false, rs⟩ := by simp [Server.act, Server.start]
  have key : ∀ n i, i + n < cs.length →
      (acksFrom i n).foldl (Server.act cs) ⟨q, some (i + 1), false, rs⟩ = ⟨q, some (i + n + 1), false, rs⟩ := by
    intro n
    induction n with
    | zero => intro i _; rfl
    | succ n ih =>
      intro i hi
      have e1 : Server.act cs ⟨q, some (i + 1), false, rs⟩ (.msg (.ack (i + 1))) = ⟨q, some (i + 1), true, rs⟩ := by
        simp [Server.act, Server.handle]
      have e2 : Server.act cs ⟨q, some (i + 1), true, rs⟩ .advance = ⟨q, some (i + 1 + 1), false, rs⟩ := by
        simp only [Server.act, Server.advance, if_true]
        rw [if_neg (by omega), if_pos (by omega)]
      show (acksFrom (i + 1) n).foldl _ _ = _
      rw [e1, e2, ih (i + 1) (by omega)]
      congr 2; omega
  have last : ∀ n i, n ≠ 0 → i + n = cs.length →
      (acksFrom i n).foldl (Server.act cs) ⟨q, some (i + 1), false, rs⟩ = ⟨q, none, false, rs ++ [true]⟩ := by
    intro n
    induction n with
    | zero => intro i h _; exact absurd rfl h
    | succ n ih =>
      intro i _ hi
      have e1 : Server.act cs ⟨q, some (i + 1), false, rs⟩ (.msg (.ack (i + 1))) = ⟨q, some (i + 1), true, rs⟩ := by
        simp [Server.act, Server.handle]
      show (acksFrom (i + 1) n).foldl _ _ = _
      rw [e1]
      by_cases hn : n = 0
      · subst hn
        simp only [Server.act, Server.advance, if_true]
        rw [if_pos (by omega)]
        rfl
      · have e2 : Server.act cs ⟨q, some (i + 1), true, rs⟩ .advance = ⟨q, some (i + 1 + 1), false, rs⟩ := by
          simp only [Server.act, Server.advance, if_true]
          rw [if_neg (by omega), if_pos (by omega)]
        rw [e2, ih (i + 1) hn (by omega)]
  constructor
  · intro k hk
    rw [List.foldl_cons, hs, key k 0 (by omega)]
    simp [Server.emits]
  · rw [List.foldl_cons, hs, last cs.length 0 (by omega) (by omega)]

/-- The last block is never acknowledged (the reader repeats the previous acknowledgement), so the
serving side never reports success, whatever the network does. -/
theorem C39_server_success_fails (size : Nat) (hs : 0 < size) (file : Bytes) (aw : Nat → Bool)
    (bl : Nat → Option Bytes) (steps : List Step) :
    let s := (Sys.init aw bl []).run size (chunks size file) steps
    (∀ b, Msg.ack b ∈ s.toSrv → b < (chunks size file).length) ∧ ∀ r ∈ s.srv.results, r = false := by
  obtain ⟨hb, -⟩ := blocks_chunks size file hs
  have h := inv_run hb steps (inv_init hb.pos aw bl)
  exact ⟨h.acks, h.res⟩

/-- C39 in full fails across two reads: the datagrams of a read carry nothing that ties them to it.
A block of an earlier transfer of another file, delayed, is taken as the block of this one: for any
file and any other short content still in the network the read can succeed with that content. -/
theorem C39_stale_fails (size : Nat) (file : Bytes) (stale : Bytes)
    (hst : stale.length < size) (aw : Nat → Bool) (bl : Nat → Option Bytes) :
    let s := ({ Sys.init aw bl [] with toRd := [.data 1 stale] } : Sys).run size (chunks size file)
      [.rdSend, .deliverRd (.data 1 stale), .rdWake]
    s.rd.phase = .done ∧ s.rd.out = stale := by
  simp [Sys.run, Sys.step, Sys.init, Reader.start, Reader.handle, Reader.handleData, Reader.wake, hst]

/-- The server waits for the acknowledgement of block `k` while the reader waits for the next. -/
structure Between (k : Nat) (s : Sys) : Prop where
  phase : s.rd.phase = .next
  idx : s.rd.idx = k + 1
  awaiting : s.rd.awaiting (k + 1) = true
  ev : s.rd.ev = false
  cur : s.srv.cur = some k
  acked : s.srv.acked = false

theorem between_step {size : Nat} {cs : List Bytes} (hc : Blocks size cs) (k : Nat) (s : Sys)
    (h : Between k s) (hlt : k < cs.length) (hsm : k + 1 < 2 ^ 16) :
    let t := s.run size cs [.rdSend, .deliverSrv (.ack k), .srvAdvance, .srvSend,
      .deliverRd (.data (k + 1) cs[k]), .rdWake]
    if k + 1 = cs.length then t.rd.phase = .done else Between (k + 1) t := by
  obtain ⟨⟨phase, idx, awaiting, blocks, ev, out⟩, ⟨queue, cur, acked, results⟩, toSrv, toRd⟩ := s
  obtain ⟨h1, h2, h3, h4, h5, h6⟩ := h
  simp only at h1 h2 h3 h4 h5 h6
  subst h1; subst h2; subst h4; subst h5; subst h6
  have hg : cs[k]? = some cs[k] := List.getElem?_eq_getElem hlt
  have hfull := hc.full k _ hg
  have hle : ¬ (k + 1 > cs.length) := by omega
  by_cases he : k + 1 = cs.length
  · have hl : (cs[k]).length < size := hfull.mpr he
    simp [Sys.run, Sys.step, Reader.emits, Server.handle, Server.advance, Server.emits,
      Reader.handle, Reader.handleData, Reader.wake, he]
    rw [← he]
    simp [hg, h3, hl, hsm]
  · have hl : ¬ (cs[k]).length < size := fun hl => he (hfull.mp hl)
    simp only [if_neg he]
    simp [Sys.run, Sys.step, Reader.emits, Server.handle, Server.advance, Server.emits,
      Reader.handle, Reader.handleData, Reader.wake, h3, hle, hg, hl, hsm]
    exact ⟨rfl, rfl, by simp, rfl, rfl, rfl⟩

theorem run_append (size : Nat) (cs : List Bytes) (s : Sys) (a b : List Step) :
    s.run size cs (a ++ b) = (s.run size cs a).run size cs b := by
  simp [Sys.run]

theorem between_finish {size : Nat} {cs : List Bytes} (hc : Blocks size cs)
    (hsm : cs.length < 2 ^ 16) (n k : Nat) (hn : k + n + 1 = cs.length) (s : Sys)
    (h : Between k s) : ∃ steps, (s.run size cs steps).rd.phase = .done := by
  induction n generalizing k s with
  | zero =>
    have := between_step hc k s h (by omega) (by omega)
    simp only [show k + 1 = cs.length by omega, if_true] at this
    exact ⟨_, this⟩
  | succ n ih =>
    have := between_step hc k s h (by omega) (by omega)
    simp only [show ¬ (k + 1 = cs.length) by omega, if_false] at this
    obtain ⟨steps, hs⟩ := ih (k + 1) (by omega) _ this
    exact ⟨_ ++ steps, by rw [run_append]; exact hs⟩

/-- C39. Success is possible: for every file of fewer than 2^16 blocks some schedule completes the
read (so C39_read is not vacuous). -/
theorem C39_completes (size : Nat) (hs : 0 < size) (file : Bytes)
    (hl : (chunks size file).length < 2 ^ 16) (aw : Nat → Bool) (bl : Nat → Option Bytes) :
    ∃ steps, ((Sys.init aw bl []).run size (chunks size file) steps).rd.phase = .done := by
  obtain ⟨hb, -⟩ := blocks_chunks size file hs
  generalize chunks size file = cs at *
  have hp := hb.pos
  have hg : cs[0]? = some cs[0] := List.getElem?_eq_getElem hp
  have hfull := hb.full 0 _ hg
  by_cases he : 1 = cs.length
  · refine ⟨[.rdSend, .deliverSrv .rrq, .srvStart, .srvSend, .deliverRd (.data 1 cs[0]), .rdWake], ?_⟩
    have hlt : (cs[0]).length < size := hfull.mpr (by omega)
    simp [Sys.run, Sys.step, Sys.init, Reader.start, Reader.emits, Server.handle, Server.start,
      Server.emits, Reader.handle, Reader.handleData, Reader.wake, hg, hlt]
  · have hlt : ¬ (cs[0]).length < size := fun h => he (by have := hfull.mp h; omega)
    have hB : Between 1 ((Sys.init aw bl []).run size cs
        [.rdSend, .deliverSrv .rrq, .srvStart, .srvSend, .deliverRd (.data 1 cs[0]), .rdWake]) := by
      simp [Sys.run, Sys.step, Sys.init, Reader.start, Reader.emits, Server.handle, Server.start,
        Server.emits, Reader.handle, Reader.handleData, Reader.wake, hg, hlt]
      exact ⟨rfl, rfl, by simp, rfl, rfl, rfl⟩
    obtain ⟨steps, hd⟩ := between_finish hb hl (cs.length - 2) 1 (by omega) _ hB
    exact ⟨_ ++ steps, by rw [run_append]; exact hd⟩

/-- A complete read of two full blocks and an empty one, with a duplicated request and duplicated,
reordered data. -/
example :
    let s := (Sys.init (fun _ => false) (fun _ => none) []).run 2 (chunks 2 [1, 2, 3, 4])
      [.rdSend, .rdSend, .deliverSrv .rrq, .deliverSrv .rrq, .srvStart, .srvSend, .srvSend,
        .deliverRd (.data 1 [1, 2]), .deliverRd (.data 1 [1, 2]), .rdWake, .rdSend, .deliverSrv (.ack 1),
        .srvAdvance, .srvSend, .deliverRd (.data 1 [1, 2]), .deliverRd (.data 2 [3, 4]), .rdWake,
        .deliverRd (.data 1 [1, 2]), .rdSend, .deliverSrv (.ack 2), .srvAdvance, .srvSend,
        .deliverRd (.data 3 []), .rdWake]
    s.rd.phase = .done ∧ s.rd.out = [1, 2, 3, 4] ∧ s.srv.cur = some 3 := by decide +kernel

end Verif.Tftp
