import Verif.Bits.Lemmas
/-!
Properties C11 (writing and reading a bit field), C12 (inversion), C13 (allocation of bits),
C14 (independence of the fields of a group).
-/
namespace Verif.Bits

open Verif.Wire

namespace Spec

/-- Bit `j` of an integer in two's complement. -/
def bit (x : Int) (j : Nat) : Prop := (x / 2 ^ j) % 2 = 1

/-- Bit `b` belongs to the range of `width` bits starting at `index`. -/
def Covers (index width b : Nat) : Prop := index ≤ b ∧ b < index + width

end Spec

theorem bit_iff (x : Int) (j : Nat) : Spec.bit x j ↔ Int.testBit x j = true := by
  rw [testBit_eq]; simp [Spec.bit]

/-! ### C11, C12 : one field -/

/-- C11. For every integer type, every stored value, every field that lies inside the type and
every integer written: the write returns, and a later read returns, the written value modulo
`2 ^ width`; every other bit of the primitive is unchanged; the primitive stays in range. -/
theorem C11_write_read (k : IntKind) (raw : Int) (i w : Nat) (v : Int) (h : i + w ≤ k.bits) :
    (writeField k raw i w v).2 = v % 2 ^ w
    ∧ readField (writeField k raw i w v).1 i w = v % 2 ^ w
    ∧ (∀ j, j < k.bits → ¬ Spec.Covers i w j →
        (Spec.bit (writeField k raw i w v).1 j ↔ Spec.bit raw j))
    ∧ packable k.size k.signed (writeField k raw i w v).1 = true := by
  refine ⟨writeField_snd _ _ _ _ _, ?_, ?_, writeField_packable _ _ _ _ _⟩
  · rw [readField_patt _ _ _ _ h, writeField_patt _ _ _ _ _ (Or.inr h), read_setBits_same,
      emod_toNat_cast]
  · intro j hj hc
    have e := congrArg (fun n => n.testBit j) (writeField_patt k raw i w v (Or.inr h))
    unfold Spec.Covers at hc
    rw [testBit_setBits, if_neg hc, testBit_patt, testBit_patt] at e
    simp only [hj, decide_true, Bool.true_and] at e
    rw [bit_iff, bit_iff, e]

/-- C11. What a read returns, for every integer (also a negative one): the bits of the range,
as an unsigned number. -/
theorem C11_read_value (raw : Int) (i w : Nat) :
    readField raw i w = raw / 2 ^ i % 2 ^ w ∧ 0 ≤ readField raw i w ∧ readField raw i w < 2 ^ w := by
  have hp : (0 : Int) < 2 ^ w := by positivity
  rw [readField_arith]
  exact ⟨rfl, Int.emod_nonneg _ (ne_of_gt hp), Int.emod_lt_of_pos _ hp⟩

/-- The bits written: bit `i + j` of the primitive becomes bit `j` of the written integer. -/
theorem C11_write_bits (k : IntKind) (raw : Int) (i w : Nat) (v : Int) (h : i + w ≤ k.bits)
    (j : Nat) (hj : j < w) :
    Spec.bit (writeField k raw i w v).1 (i + j) ↔ Spec.bit v j := by
  have e := congrArg (fun n => n.testBit (i + j)) (writeField_patt k raw i w v (Or.inr h))
  rw [testBit_setBits, if_pos ⟨by omega, by omega⟩, testBit_patt] at e
  have h1 : i + j < k.bits := by omega
  have h2 : i + j - i = j := by omega
  rw [h2] at e
  have h3 : ((v % 2 ^ w).toNat).testBit j = (decide (j < w) && Int.testBit v j) := testBit_patt w v j
  rw [h3] at e
  simp only [h1, hj, decide_true, Bool.true_and] at e
  rw [bit_iff, bit_iff, e]

/-- A three-bit field at bit 2 of a `uint8` holding `0xFF`: writing `-3` stores `5`. -/
example : 2 + 3 ≤ IntKind.uint8.bits ∧ writeField .uint8 0xFF 2 3 (-3) = (0xF7, 5) := by decide +kernel

/-- A flag in the sign bit of an `int8`. -/
example : 7 + 1 ≤ IntKind.int8.bits ∧ writeField .int8 0 7 1 1 = (-128, 1)
    ∧ readField (-128) 7 1 = 1 := by decide +kernel

/-- The constructor of a stand-alone field only checks `index < bits` and `width ≤ bits`
(field/__init__.py 110–113), so a field may stick out of its primitive: four bits at bit 7 of a
`uint8` are accepted, and writing 15 reads back 1, although 15 was returned by the write. -/
theorem C11_overhanging_field_fails :
    fieldOk (fun _ => true) .uint8 "a" 7 4 = true
    ∧ (writeField .uint8 0 7 4 15).2 = 15
    ∧ readField (writeField .uint8 0 7 4 15).1 7 4 = 1 := by decide +kernel

/-- C12. Inverting a field replaces its value by the complement, touches no other bit, and
inverting it again restores the primitive exactly. -/
theorem C12_invert (k : IntKind) (raw : Int) (i w : Nat) (h : i + w ≤ k.bits)
    (hr : packable k.size k.signed raw = true) :
    (invertField k raw i w).2 = 2 ^ w - 1 - readField raw i w
    ∧ readField (invertField k raw i w).1 i w = 2 ^ w - 1 - readField raw i w
    ∧ (∀ j, j < k.bits → (Spec.bit (invertField k raw i w).1 j ↔
        (if i ≤ j ∧ j < i + w then ¬ Spec.bit raw j else Spec.bit raw j)))
    ∧ (invertField k (invertField k raw i w).1 i w).1 = raw := by
  have hp : (0 : Int) < 2 ^ w := by positivity
  have hrd := C11_read_value raw i w
  have hneg : Int.lnot (readField raw i w) % 2 ^ w = 2 ^ w - 1 - readField raw i w := by
    have e : Int.lnot (readField raw i w) = 2 ^ w - 1 - readField raw i w + 2 ^ w * (-1) := by
      obtain ⟨n, hn⟩ := Int.eq_ofNat_of_zero_le hrd.2.1
      rw [hn]
      show Int.negSucc n = _
      rw [Int.negSucc_eq]; ring
    rw [e, Int.add_mul_emod_self_left, Int.emod_eq_of_lt (by linarith) (by linarith)]
  have h1 := C11_write_read k raw i w (Int.lnot (readField raw i w)) h
  have hbits : ∀ (x : Int) (j : Nat), j < k.bits →
      (Spec.bit (invertField k x i w).1 j ↔
        (if i ≤ j ∧ j < i + w then ¬ Spec.bit x j else Spec.bit x j)) := by
    intro x j hj
    split
    · rename_i hc
      have := C11_write_bits k x i w (Int.lnot (readField x i w)) h (j - i) (by omega)
      rw [show i + (j - i) = j by omega] at this
      unfold invertField
      rw [this, bit_iff, bit_iff, Int.testBit_lnot, readField_patt x i w _ h]
      have e : Int.testBit ((patt k.bits x / 2 ^ i % 2 ^ w : Nat) : Int) (j - i)
          = (patt k.bits x / 2 ^ i % 2 ^ w).testBit (j - i) := rfl
      rw [e, Nat.testBit_mod_two_pow, Nat.testBit_div_two_pow, testBit_patt,
        show j - i + i = j by omega]
      have : j - i < w := by omega
      simp [this, hj]
    · rename_i hc
      exact (C11_write_read k x i w (Int.lnot (readField x i w)) h).2.2.1 j hj hc
  refine ⟨?_, ?_, hbits raw, ?_⟩
  · unfold invertField; rw [h1.1, hneg]
  · unfold invertField; rw [h1.2.1, hneg]
  · apply patt_inj k _ _ (by unfold invertField; exact writeField_packable _ _ _ _ _) hr
    apply Nat.eq_of_testBit_eq
    intro j
    rw [testBit_patt, testBit_patt]
    by_cases hj : j < k.bits
    · simp only [hj, decide_true, Bool.true_and]
      rw [Bool.eq_iff_iff, ← bit_iff, ← bit_iff, hbits _ j hj, hbits _ j hj]
      split <;> simp
    · simp [hj]

example : invertField .uint8 0b10110 1 3 = (0b11000, 0b100) := by decide +kernel

/-- C12 for the flag interface: `set` makes a flag read true, `clear` false, `invert` toggles. -/
theorem C12_flag (k : IntKind) (raw : Int) (i : Nat) (h : i < k.bits)
    (hr : packable k.size k.signed raw = true) :
    readField (writeField k raw i 1 1).1 i 1 = 1
    ∧ readField (writeField k raw i 1 0).1 i 1 = 0
    ∧ readField (invertField k raw i 1).1 i 1 = 1 - readField raw i 1 := by
  refine ⟨?_, ?_, ?_⟩
  · rw [(C11_write_read k raw i 1 1 (by omega)).2.1]; rfl
  · rw [(C11_write_read k raw i 1 0 (by omega)).2.1]; rfl
  · rw [(C12_invert k raw i 1 (by omega) hr).2.1]; rfl

/-- The position marker printed by `where_str` is set exactly for the bits of the field. -/
theorem C11_where (i w j : Nat) : whereBit i w j = true ↔ Spec.Covers i w j := by
  unfold whereBit Spec.Covers
  have e : (2 : Int) ^ j = ((2 ^ j : Nat) : Int) := by push_cast; rfl
  rw [shiftedMask_cast, e]
  have : Int.land ((2 ^ j : Nat) : Int) (((2 ^ w - 1) * 2 ^ i : Nat) : Int)
      = ((2 ^ j &&& ((2 ^ w - 1) * 2 ^ i) : Nat) : Int) := rfl
  rw [this, Nat.two_pow_and, testBit_shifted]
  have hp : 0 < 2 ^ j := Nat.two_pow_pos j
  by_cases h1 : i ≤ j <;> by_cases h2 : j < i + w <;> simp [h1, h2]

/-! ### Histories of a group -/

/-- A group together with the field objects handed out so far (index and width). -/
structure St where
  g : Group
  handles : List (Nat × Nat)

/-- Uses of a group: adding a flag, a field, padding; writing through or inverting the `h`-th
object handed out; finalising. -/
inductive Op where
  | flag (name : String) (index : Option Int) (enum : Option Int) (commandable : Bool)
  | field (name : String) (width : Nat) (index : Option Int) (enum : Option Int) (commandable : Bool)
  | pad (width : Nat) (index : Option Int) (val : Int)
  | write (h : Nat) (val : Int)
  | invert (h : Nat)
  | finalize

/-- Width requested by an allocating operation. -/
def Op.width : Op → Nat
  | .flag .. => 1
  | .field _ w .. => w
  | .pad w .. => w
  | _ => 0

/-- The result of an operation: an allocated index, a returned value or an exception. -/
inductive Out where
  | at (index : Nat)
  | val (v : Int)
  | raised (e : PyErr)
  | done
  deriving DecidableEq, Repr

/-- Outcome of an allocating call. -/
def allocOut (s : St) (width : Nat) (r : Group × Except PyErr Nat) : St × Out :=
  match r.2 with
  | .ok i => (⟨r.1, s.handles ++ [(i, width)]⟩, .at i)
  | .error e => (⟨r.1, s.handles⟩, .raised e)

/-- One use of the group. -/
def step (validName : String → Bool) (s : St) (op : Op) : St × Out :=
  match op with
  | .flag n i e c => allocOut s 1 (s.g.flag validName n i e c)
  | .field n w i e c => allocOut s w (s.g.field validName n w i e c)
  | .pad w i v => allocOut s w (s.g.pad w i v)
  | .write h v =>
    match s.handles[h]? with
    | some (i, w) => (⟨(s.g.write i w v).1, s.handles⟩, .val (s.g.write i w v).2)
    | none => (s, .done)
  | .invert h =>
    match s.handles[h]? with
    | some (i, w) =>
      let r := invertField s.g.kind s.g.raw i w
      (⟨{ s.g with raw := r.1 }, s.handles⟩, .val r.2)
    | none => (s, .done)
  | .finalize => (⟨s.g.finalize, s.handles⟩, .done)

/-- State after a history (newest operation first). -/
def after (validName : String → Bool) (k : IntKind) : List Op → St
  | [] => ⟨Group.new k, []⟩
  | op :: rest => (step validName (after validName k rest) op).1

namespace Spec

/-- An independent memory cell per field: index, width, unsigned value. -/
structure Cell where
  index : Nat
  width : Nat
  value : Nat
  deriving DecidableEq, Repr

/-- What a use does to the independent cells, given what the call returned: an allocation adds
a cell holding zero (padding: its value modulo its size), a write replaces the value of one cell
by the written value modulo its size, an inversion complements one cell. -/
def next (cells : List Cell) (op : Op) (out : Out) : List Cell :=
  match op, out with
  | .flag .., .at i => cells ++ [⟨i, 1, 0⟩]
  | .field _ w .., .at i => cells ++ [⟨i, w, 0⟩]
  | .pad w _ v, .at i => cells ++ [⟨i, w, (v % 2 ^ w).toNat⟩]
  | .write h v, _ => cells.modify h (fun c => { c with value := (v % 2 ^ c.width).toNat })
  | .invert h, _ => cells.modify h (fun c => { c with value := 2 ^ c.width - 1 - c.value })
  | _, _ => cells

/-- The cells after a history. -/
def cells (validName : String → Bool) (k : IntKind) : List Op → List Cell
  | [] => []
  | op :: rest => next (cells validName k rest) op (step validName (after validName k rest) op).2

end Spec

/-! ### The invariant -/

/-- Relation between a group and the independent cells. -/
structure Inv (k : IntKind) (s : St) (cells : List Spec.Cell) : Prop where
  kind : s.g.kind = k
  packed : packable k.size k.signed s.g.raw = true
  handles : s.handles = cells.map (fun c => (c.index, c.width))
  avail_lt : ∀ b, s.g.avail b = true → b < k.bits
  inside : ∀ c ∈ cells, c.width = 0 ∨ c.index + c.width ≤ k.bits
  taken : ∀ c ∈ cells, ∀ b, Spec.Covers c.index c.width b → s.g.avail b = false
  value_lt : ∀ c ∈ cells, c.value < 2 ^ c.width
  disjoint : cells.Pairwise (fun c d => ∀ b, ¬ (Spec.Covers c.index c.width b ∧
    Spec.Covers d.index d.width b))
  rest_zero : ∀ b, (patt k.bits s.g.raw).testBit b = true →
    ∃ c ∈ cells, Spec.Covers c.index c.width b
  values : ∀ c ∈ cells, patt k.bits s.g.raw / 2 ^ c.index % 2 ^ c.width = c.value

theorem claim_ok {g g' : Group} {w : Nat} {idx : Option Int} {i : Nat}
    (h : g.claim w idx = .ok (g', i)) :
    g.finalized = false ∧ idx.getD g.curr = (i : Int)
    ∧ (∀ b, Spec.Covers i w b → g.avail b = true)
    ∧ g' = { g with
        avail := fun b => g.avail b && !(decide (i ≤ b) && decide (b < i + w))
        curr := if i ≥ g.curr then i + w else g.curr } := by
  unfold Group.claim at h
  split at h
  · cases h
  · rename_i hf
    simp only at h
    split at h
    · split at h <;> cases h
    · rename_i hneg
      split at h
      · rename_i hall
        have h := Except.ok.inj h
        have h1 := congrArg Prod.fst h
        have h2 := congrArg Prod.snd h
        simp only at h1 h2
        rw [h2] at h1 hall
        refine ⟨by simpa using hf, by omega, ?_, h1.symm⟩
        intro b hb
        rw [List.all_eq_true] at hall
        have := hall (b - i) (by rw [List.mem_range]; have := hb.1; have := hb.2; omega)
        rwa [show b - i + i = b by have := hb.1; omega] at this
      · cases h

/-- The invariant survives a claim that hands out no object. -/
theorem Inv.claim_leak {k : IntKind} {s : St} {cells : List Spec.Cell} (hi : Inv k s cells)
    {g' : Group} {w : Nat} {idx : Option Int} {i : Nat} (h : s.g.claim w idx = .ok (g', i)) :
    Inv k ⟨g', s.handles⟩ cells := by
  obtain ⟨-, -, ha, rfl⟩ := claim_ok h
  refine ⟨hi.kind, hi.packed, hi.handles, ?_, hi.inside, ?_, hi.value_lt, hi.disjoint,
    hi.rest_zero, hi.values⟩
  · intro b hb
    simp only [Bool.and_eq_true] at hb
    exact hi.avail_lt b hb.1
  · intro c hc b hb
    simp only [hi.taken c hc b hb, Bool.false_and]

theorem Inv.congr {k : IntKind} {g g' : Group} {hs : List (Nat × Nat)} {cells : List Spec.Cell}
    (hi : Inv k ⟨g, hs⟩ cells) (h1 : g'.kind = g.kind) (h2 : g'.raw = g.raw)
    (h3 : g'.avail = g.avail) : Inv k ⟨g', hs⟩ cells := by
  obtain ⟨a, b, c, d, e, f, x, y, z, u⟩ := hi
  dsimp only at *
  exact ⟨by rw [h1]; exact a, by rw [h2]; exact b, c, by rw [h3]; exact d, e, by rw [h3]; exact f,
    x, y, by rw [h2]; exact z, by rw [h2]; exact u⟩

/-- A successful claim that hands out an object holding zero. -/
theorem Inv.claim_add {k : IntKind} {s : St} {cells : List Spec.Cell} (hi : Inv k s cells)
    {g' : Group} {w : Nat} {idx : Option Int} {i : Nat} (h : s.g.claim w idx = .ok (g', i)) :
    Inv k ⟨g', s.handles ++ [(i, w)]⟩ (cells ++ [⟨i, w, 0⟩]) := by
  obtain ⟨-, -, ha, rfl⟩ := claim_ok h
  have hfree : ∀ c ∈ cells, ∀ b, Spec.Covers c.index c.width b → ¬ Spec.Covers i w b := by
    intro c hc b hb hb'
    have h1 := hi.taken c hc b hb
    rw [ha b hb'] at h1
    cases h1
  have hin : w = 0 ∨ i + w ≤ k.bits := by
    by_cases hw : w = 0
    · exact Or.inl hw
    · right
      have := hi.avail_lt (i + w - 1) (ha _ ⟨by omega, by omega⟩)
      omega
  refine ⟨hi.kind, hi.packed, ?_, ?_, ?_, ?_, ?_, ?_, ?_, ?_⟩
  · simp [hi.handles]
  · intro b hb
    simp only [Bool.and_eq_true] at hb
    exact hi.avail_lt b hb.1
  · intro c hc
    rcases List.mem_append.mp hc with hc | hc
    · exact hi.inside c hc
    · rw [List.mem_singleton] at hc; subst hc; exact hin
  · intro c hc b hb
    rcases List.mem_append.mp hc with hc | hc
    · simp only [hi.taken c hc b hb, Bool.false_and]
    · rw [List.mem_singleton] at hc; subst hc
      have h1 := hb.1; have h2 := hb.2
      simp only at h1 h2
      simp [h1, h2]
  · intro c hc
    rcases List.mem_append.mp hc with hc | hc
    · exact hi.value_lt c hc
    · rw [List.mem_singleton] at hc; subst hc; exact Nat.two_pow_pos _
  · rw [List.pairwise_append]
    refine ⟨hi.disjoint, List.pairwise_singleton _ _, ?_⟩
    intro c hc d hd b hb
    rw [List.mem_singleton] at hd; subst hd
    exact hfree c hc b hb.1 hb.2
  · intro b hb
    obtain ⟨c, hc, hcb⟩ := hi.rest_zero b hb
    exact ⟨c, List.mem_append_left _ hc, hcb⟩
  · intro c hc
    rcases List.mem_append.mp hc with hc | hc
    · exact hi.values c hc
    · rw [List.mem_singleton] at hc; subst hc
      apply Nat.eq_of_testBit_eq
      intro j
      rw [Nat.testBit_mod_two_pow, Nat.testBit_div_two_pow, Nat.zero_testBit]
      by_cases hj : j < w
      · simp only [hj, decide_true, Bool.true_and]
        cases hb : (patt k.bits s.g.raw).testBit (j + i) with
        | false => rfl
        | true =>
          obtain ⟨c, hc, hcb⟩ := hi.rest_zero _ hb
          exact absurd ⟨by omega, by omega⟩ (hfree c hc _ hcb)
      · simp [hj]

/-- Writing through one object. -/
theorem Inv.write {k : IntKind} {s : St} {cells : List Spec.Cell} (hi : Inv k s cells)
    (h : Nat) (c : Spec.Cell) (hc : cells[h]? = some c) (v : Int) (g' : Group)
    (hg : g' = { s.g with raw := (writeField k s.g.raw c.index c.width v).1 }) (val : Nat)
    (hval : val = (v % 2 ^ c.width).toNat) (f : Spec.Cell → Spec.Cell)
    (hf : f c = { c with value := val }) :
    Inv k ⟨g', s.handles⟩ (cells.modify h f) := by
  subst hg
  have hmem : c ∈ cells := List.mem_of_getElem? hc
  have hw := writeField_patt k s.g.raw c.index c.width v (hi.inside c hmem)
  have hlt : h < cells.length := by
    rcases Nat.lt_or_ge h cells.length with h' | h'
    · exact h'
    · rw [List.getElem?_eq_none h'] at hc; cases hc
  -- each new cell comes from an old one with the same range
  have hold : ∀ d ∈ cells.modify h f, ∃ j, ∃ d', cells[j]? = some d' ∧
      ((j = h ∧ d' = c ∧ d = { c with value := val }) ∨ (j ≠ h ∧ d = d')) := by
    intro d hd
    obtain ⟨j, hj⟩ := List.mem_iff_getElem?.mp hd
    rw [List.getElem?_modify] at hj
    by_cases hjh : h = j
    · subst hjh
      rw [hc] at hj
      have hj : f c = d := by simpa using hj
      exact ⟨h, c, hc, Or.inl ⟨rfl, rfl, by rw [← hj, hf]⟩⟩
    · simp only [if_neg hjh] at hj
      refine ⟨j, d, by simpa using hj, Or.inr ⟨fun e => hjh e.symm, rfl⟩⟩
  have hrange : ∀ d ∈ cells.modify h f, ∃ d' ∈ cells, d.index = d'.index ∧ d.width = d'.width := by
    intro d hd
    obtain ⟨j, d', hj, hcase⟩ := hold d hd
    refine ⟨d', List.mem_of_getElem? hj, ?_⟩
    rcases hcase with ⟨-, rfl, rfl⟩ | ⟨-, rfl⟩ <;> exact ⟨rfl, rfl⟩
  have hmap : (cells.modify h f).map (fun c => (c.index, c.width))
      = cells.map (fun c => (c.index, c.width)) := by
    apply List.ext_getElem?
    intro j
    rw [List.getElem?_map, List.getElem?_map, List.getElem?_modify]
    by_cases hjh : h = j
    · subst hjh; rw [hc]; simp [hf]
    · simp [if_neg hjh]
  refine ⟨hi.kind, writeField_packable _ _ _ _ _, by rw [hmap]; exact hi.handles, hi.avail_lt,
    ?_, ?_, ?_, ?_, ?_, ?_⟩
  · intro d hd
    obtain ⟨d', hd', e1, e2⟩ := hrange d hd
    rw [e1, e2]; exact hi.inside d' hd'
  · intro d hd b hb
    obtain ⟨d', hd', e1, e2⟩ := hrange d hd
    rw [e1, e2] at hb; exact hi.taken d' hd' b hb
  · intro d hd
    obtain ⟨j, d', hj, hcase⟩ := hold d hd
    rcases hcase with ⟨-, rfl, rfl⟩ | ⟨-, rfl⟩
    · subst hval; exact emod_toNat_lt _ _
    · exact hi.value_lt d (List.mem_of_getElem? hj)
  · have hp : (cells.map (fun c => (c.index, c.width))).Pairwise
        (fun c d => ∀ b, ¬ (Spec.Covers c.1 c.2 b ∧ Spec.Covers d.1 d.2 b)) := by
      rw [List.pairwise_map]; exact hi.disjoint
    rw [← hmap, List.pairwise_map] at hp
    exact hp
  · intro b hb
    dsimp only at hb
    rw [hw, testBit_setBits] at hb
    have hget : ∀ (j : Nat) (d' : Spec.Cell), cells[j]? = some d' → ∃ d ∈ cells.modify h f,
        d.index = d'.index ∧ d.width = d'.width := by
      intro j d' hj
      by_cases hjh : h = j
      · subst hjh
        rw [hc] at hj; cases hj
        refine ⟨f c, List.mem_iff_getElem?.mpr ⟨h, ?_⟩, by rw [hf], by rw [hf]⟩
        rw [List.getElem?_modify, hc]; simp
      · refine ⟨d', List.mem_iff_getElem?.mpr ⟨j, ?_⟩, rfl, rfl⟩
        rw [List.getElem?_modify, hj]; simp [hjh]
    split at hb
    · rename_i hcov
      obtain ⟨d, hd, e1, e2⟩ := hget h c hc
      exact ⟨d, hd, by rw [e1, e2]; exact hcov⟩
    · obtain ⟨d', hd', hcov⟩ := hi.rest_zero b hb
      obtain ⟨j, hj⟩ := List.mem_iff_getElem?.mp hd'
      obtain ⟨d, hd, e1, e2⟩ := hget j d' hj
      exact ⟨d, hd, by rw [e1, e2]; exact hcov⟩
  · intro d hd
    dsimp only
    rw [hw]
    obtain ⟨j, d', hj, hcase⟩ := hold d hd
    rcases hcase with ⟨-, rfl, rfl⟩ | ⟨hjh, rfl⟩
    · dsimp only; rw [read_setBits_same, hval]
    · rw [read_setBits_other]
      · exact hi.values d (List.mem_of_getElem? hj)
      · intro b hb1 hb2 hcov
        obtain ⟨hj1, hj2⟩ := List.getElem?_eq_some_iff.mp hj
        obtain ⟨hh1, hh2⟩ := List.getElem?_eq_some_iff.mp hc
        rcases Nat.lt_or_ge j h with hlt' | hge
        · have := List.pairwise_iff_getElem.mp hi.disjoint j h hj1 hh1 hlt' b
          rw [hj2, hh2] at this
          exact this ⟨⟨hb1, hb2⟩, hcov⟩
        · have := List.pairwise_iff_getElem.mp hi.disjoint h j hh1 hj1 (by omega) b
          rw [hj2, hh2] at this
          exact this ⟨hcov, ⟨hb1, hb2⟩⟩

theorem lnot_read_emod (x : Int) (i w : Nat) :
    (Int.lnot (readField x i w) % 2 ^ w).toNat = 2 ^ w - 1 - (readField x i w).toNat := by
  have hp : (0 : Int) < 2 ^ w := by positivity
  have hrd := C11_read_value x i w
  obtain ⟨n, hn⟩ := Int.eq_ofNat_of_zero_le hrd.2.1
  have hlt : n < 2 ^ w := by
    have := hrd.2.2; rw [hn] at this; exact_mod_cast this
  have e : Int.lnot (readField x i w) % 2 ^ w = ((2 ^ w - 1 - n : Nat) : Int) := by
    have e : Int.lnot (readField x i w) = 2 ^ w - 1 - readField x i w + 2 ^ w * (-1) := by
      rw [hn]
      show Int.negSucc n = _
      rw [Int.negSucc_eq]; ring
    rw [e, Int.add_mul_emod_self_left, Int.emod_eq_of_lt (by linarith) (by linarith), hn]
    rw [Nat.sub_sub, Nat.cast_sub (by omega)]
    push_cast; ring
  rw [e, hn]; simp

/-- The invariant holds after every history. -/
theorem inv_after (validName : String → Bool) (k : IntKind) (ops : List Op) :
    Inv k (after validName k ops) (Spec.cells validName k ops) := by
  induction ops with
  | nil =>
    refine ⟨rfl, ?_, rfl, ?_, by simp [Spec.cells], by simp [Spec.cells], by simp [Spec.cells],
      by simp [Spec.cells], ?_, by simp [Spec.cells]⟩
    · show packable k.size k.signed 0 = true
      unfold packable
      have h1 : (0 : Int) < 2 ^ (8 * k.size - 1) := by positivity
      have h2 : (0 : Int) < 2 ^ (8 * k.size) := by positivity
      split <;> simp [h1, h2, Int.le_of_lt h1]
    · intro b hb
      simpa [after, Group.new] using hb
    · intro b hb
      have : patt k.bits (after validName k []).g.raw = 0 := by
        show patt k.bits 0 = 0
        simp [patt]
      rw [this] at hb
      simp at hb
  | cons op rest ih =>
    show Inv k (step validName (after validName k rest) op).1
      (Spec.next (Spec.cells validName k rest) op (step validName (after validName k rest) op).2)
    generalize hs : after validName k rest = s at ih ⊢
    generalize hcs : Spec.cells validName k rest = cells at ih ⊢
    cases op with
    | flag n i e c =>
      simp only [step, Group.flag]
      cases hcl : s.g.claim 1 i with
      | error x => exact ih
      | ok r =>
        obtain ⟨g', i'⟩ := r
        dsimp only
        by_cases hok : fieldOk validName g'.kind n i' 1 = true
        · rw [if_pos hok]
          exact (ih.claim_add hcl).congr rfl rfl rfl
        · rw [if_neg hok]
          exact ih.claim_leak hcl
    | field n w i e c =>
      simp only [step, Group.field]
      by_cases hw1 : w = 1
      · rw [if_pos hw1]; exact ih
      rw [if_neg hw1]
      cases hcl : s.g.claim w i with
      | error x => exact ih
      | ok r =>
        obtain ⟨g', i'⟩ := r
        dsimp only
        by_cases hok : fieldOk validName g'.kind n i' w = true
        · rw [if_pos hok]
          by_cases hdup : g'.fields.any (·.1 == n) = true
          · rw [if_pos hdup]
            exact ih.claim_leak hcl
          · rw [if_neg hdup]
            exact (ih.claim_add hcl).congr rfl rfl rfl
        · rw [if_neg hok]
          exact ih.claim_leak hcl
    | pad w i v =>
      simp only [step, Group.pad]
      cases hcl : s.g.claim w i with
      | error x => exact ih
      | ok r =>
        obtain ⟨g', i'⟩ := r
        dsimp only
        have h1 := ih.claim_add hcl
        have hlen : (cells ++ [(⟨i', w, 0⟩ : Spec.Cell)])[cells.length]? = some ⟨i', w, 0⟩ := by simp
        have h2 := h1.write cells.length ⟨i', w, 0⟩ hlen v
          { g' with raw := (writeField k g'.raw i' w v).1 } rfl
          ((v % 2 ^ w).toNat) rfl (fun c => { c with value := (v % 2 ^ w).toNat }) rfl
        have hmod : (cells ++ [(⟨i', w, 0⟩ : Spec.Cell)]).modify cells.length
            (fun c => { c with value := (v % 2 ^ w).toNat })
            = cells ++ [⟨i', w, (v % 2 ^ w).toNat⟩] := by
          apply List.ext_getElem?
          intro j
          rw [List.getElem?_modify]
          by_cases hj : cells.length = j
          · subst hj; simp
          · rcases Nat.lt_or_ge j cells.length with hl | hg
            · rw [List.getElem?_append_left hl, List.getElem?_append_left hl]; simp [hj]
            · rw [List.getElem?_append_right hg, List.getElem?_append_right hg]
              have : j - cells.length ≠ 0 := by omega
              obtain ⟨m, hm⟩ := Nat.exists_eq_succ_of_ne_zero this
              rw [hm]; simp
        rw [hmod] at h2
        have hk : g'.kind = k := h1.kind
        refine h2.congr rfl ?_ rfl
        rw [hk]
    | write h v =>
      simp only [step]
      have hh := congrArg (fun l => l[h]?) ih.handles
      rw [List.getElem?_map] at hh
      cases hc : cells[h]? with
      | none =>
        rw [hc] at hh
        rw [hh]
        show Inv k s (cells.modify h _)
        rw [List.modify_eq_self (by
          rcases Nat.lt_or_ge h cells.length with h' | h'
          · rw [List.getElem?_eq_getElem h'] at hc; cases hc
          · exact h')]
        exact ih
      | some c =>
        rw [hc] at hh
        rw [hh]
        refine ih.write h c hc v _ ?_ ((v % 2 ^ c.width).toNat) rfl _ rfl
        simp only [Group.write, ih.kind]
    | invert h =>
      simp only [step]
      have hh := congrArg (fun l => l[h]?) ih.handles
      rw [List.getElem?_map] at hh
      cases hc : cells[h]? with
      | none =>
        rw [hc] at hh
        rw [hh]
        show Inv k s (cells.modify h _)
        rw [List.modify_eq_self (by
          rcases Nat.lt_or_ge h cells.length with h' | h'
          · rw [List.getElem?_eq_getElem h'] at hc; cases hc
          · exact h')]
        exact ih
      | some c =>
        rw [hc] at hh
        rw [hh]
        refine ih.write h c hc (Int.lnot (readField s.g.raw c.index c.width)) _ ?_
          (2 ^ c.width - 1 - c.value) ?_ _ rfl
        · simp only [invertField, ih.kind]
        · rw [lnot_read_emod]
          have hmem := List.mem_of_getElem? hc
          rcases ih.inside c hmem with h0 | hin
          · rw [h0]; simp
          · rw [readField_patt _ _ _ _ hin, ih.values c hmem]; simp
    | finalize => exact ih.congr rfl rfl rfl

/-! ### C13, C14 -/

/-- C13. Whatever is added to a group, in whatever order, at whatever positions, with failing
calls in between: no two objects handed out share a bit, and every bit of every object lies
inside the primitive. -/
theorem C13_no_overlap (validName : String → Bool) (k : IntKind) (ops : List Op) :
    (after validName k ops).handles.Pairwise
      (fun a b => ∀ j, ¬ (Spec.Covers a.1 a.2 j ∧ Spec.Covers b.1 b.2 j))
    ∧ ∀ a ∈ (after validName k ops).handles, ∀ j, Spec.Covers a.1 a.2 j → j < k.bits := by
  have hi := inv_after validName k ops
  rw [hi.handles]
  refine ⟨by rw [List.pairwise_map]; exact hi.disjoint, ?_⟩
  intro a ha j hj
  obtain ⟨c, hc, rfl⟩ := List.mem_map.mp ha
  rcases hi.inside c hc with h0 | h1
  · have := hj.1; have := hj.2; dsimp only at *; omega
  · have := hj.2; dsimp only at *; omega

/-- C13. A successful addition returns the requested position and hands out an object of the
requested width there; an unsuccessful one hands out nothing. -/
theorem C13_position (validName : String → Bool) (s : St) (op : Op) :
    (∀ i, (step validName s op).2 = .at i →
      (step validName s op).1.handles = s.handles ++ [(i, op.width)]
      ∧ (∀ n r e c, op = .flag n (some r) e c → r = i)
      ∧ (∀ n w r e c, op = .field n w (some r) e c → r = i)
      ∧ (∀ w r v, op = .pad w (some r) v → r = i))
    ∧ (∀ e, (step validName s op).2 = .raised e → (step validName s op).1.handles = s.handles) := by
  cases op with
  | flag n i e c =>
    simp only [step, Group.flag, Op.width]
    cases hcl : s.g.claim 1 i with
    | error x => exact ⟨fun _ h => (by cases h), fun _ _ => rfl⟩
    | ok r =>
      obtain ⟨g', i'⟩ := r
      obtain ⟨-, hidx, -, -⟩ := claim_ok hcl
      dsimp only
      by_cases hok : fieldOk validName g'.kind n i' 1 = true
      · rw [if_pos hok]
        refine ⟨?_, fun _ h => (by cases h)⟩
        intro j hj
        have : i' = j := by simpa [allocOut] using hj
        subst this
        refine ⟨rfl, ?_, fun _ _ _ _ _ h => (by cases h), fun _ _ _ h => (by cases h)⟩
        intro n' r e' c' h
        cases h
        simpa using hidx
      · rw [if_neg hok]
        exact ⟨fun _ h => (by cases h), fun _ _ => rfl⟩
  | field n w i e c =>
    simp only [step, Group.field, Op.width]
    by_cases hw1 : w = 1
    · rw [if_pos hw1]; exact ⟨fun _ h => (by cases h), fun _ _ => rfl⟩
    rw [if_neg hw1]
    cases hcl : s.g.claim w i with
    | error x => exact ⟨fun _ h => (by cases h), fun _ _ => rfl⟩
    | ok r =>
      obtain ⟨g', i'⟩ := r
      obtain ⟨-, hidx, -, -⟩ := claim_ok hcl
      dsimp only
      by_cases hok : fieldOk validName g'.kind n i' w = true
      · rw [if_pos hok]
        by_cases hdup : g'.fields.any (·.1 == n) = true
        · rw [if_pos hdup]; exact ⟨fun _ h => (by cases h), fun _ _ => rfl⟩
        · rw [if_neg hdup]
          refine ⟨?_, fun _ h => (by cases h)⟩
          intro j hj
          have : i' = j := by simpa [allocOut] using hj
          subst this
          refine ⟨rfl, fun _ _ _ _ h => (by cases h), ?_, fun _ _ _ h => (by cases h)⟩
          intro n' w' r e' c' h
          cases h
          simpa using hidx
      · rw [if_neg hok]; exact ⟨fun _ h => (by cases h), fun _ _ => rfl⟩
  | pad w i v =>
    simp only [step, Group.pad, Op.width]
    cases hcl : s.g.claim w i with
    | error x => exact ⟨fun _ h => (by cases h), fun _ _ => rfl⟩
    | ok r =>
      obtain ⟨g', i'⟩ := r
      obtain ⟨-, hidx, -, -⟩ := claim_ok hcl
      dsimp only
      refine ⟨?_, fun _ h => (by cases h)⟩
      intro j hj
      have : i' = j := by simpa [allocOut] using hj
      subst this
      refine ⟨rfl, fun _ _ _ _ h => (by cases h), fun _ _ _ _ _ h => (by cases h), ?_⟩
      intro w' r v' h
      cases h
      simpa using hidx
  | write h v =>
    simp only [step]
    cases s.handles[h]? with
    | none => exact ⟨fun _ h => (by cases h), fun _ h => (by cases h)⟩
    | some p => exact ⟨fun _ h => (by cases h), fun _ h => (by cases h)⟩
  | invert h =>
    simp only [step]
    cases s.handles[h]? with
    | none => exact ⟨fun _ h => (by cases h), fun _ h => (by cases h)⟩
    | some p => exact ⟨fun _ h => (by cases h), fun _ h => (by cases h)⟩
  | finalize => exact ⟨fun _ h => (by cases h), fun _ h => (by cases h)⟩

/-- C14. Fields behave like independent variables: after any history of additions (also failing
ones), writes and inversions, every object handed out reads as its own cell says, where a cell is
changed by writes and inversions through its own object only. -/
theorem C14_independent (validName : String → Bool) (k : IntKind) (ops : List Op) (h : Nat)
    (i w : Nat) (hh : (after validName k ops).handles[h]? = some (i, w)) :
    ∃ c, (Spec.cells validName k ops)[h]? = some c ∧ c.index = i ∧ c.width = w
      ∧ readField (after validName k ops).g.raw i w = c.value := by
  have hi := inv_after validName k ops
  rw [hi.handles, List.getElem?_map] at hh
  cases hc : (Spec.cells validName k ops)[h]? with
  | none => rw [hc] at hh; cases hh
  | some c =>
    rw [hc] at hh
    simp only [Option.map_some, Option.some.injEq, Prod.mk.injEq] at hh
    obtain ⟨rfl, rfl⟩ := hh
    refine ⟨c, rfl, rfl, rfl, ?_⟩
    have hmem := List.mem_of_getElem? hc
    rcases hi.inside c hmem with h0 | h1
    · rw [readField_arith, h0]
      have hv := hi.value_lt c hmem
      rw [h0] at hv
      have : c.value = 0 := by simpa using hv
      rw [this]; simp
    · rw [readField_patt _ _ _ _ h1, hi.values c hmem]

/-- C14. Bits of the primitive that belong to no object stay zero. -/
theorem C14_rest_zero (validName : String → Bool) (k : IntKind) (ops : List Op) (b : Nat)
    (hb : b < k.bits)
    (hfree : ∀ a ∈ (after validName k ops).handles, ¬ Spec.Covers a.1 a.2 b) :
    ¬ Spec.bit (after validName k ops).g.raw b := by
  have hi := inv_after validName k ops
  rw [bit_iff]
  intro hbit
  obtain ⟨c, hc, hcov⟩ := hi.rest_zero b (by rw [testBit_patt]; simp [hb, hbit])
  exact hfree (c.index, c.width) (by rw [hi.handles]; exact List.mem_map_of_mem hc) hcov

/-- A history with a flag at bit 0, a failing addition, a field at 3, writes and an inversion. -/
def sample : List Op :=
  [.invert 0, .write 1 (-1), .write 0 0, .field "b" 3 (some 3) none false,
    .field "c" 4 (some (-1)) none false, .flag "a" none none true]

example : (after (fun _ => true) .uint8 sample).handles = [(0, 1), (3, 3)]
    ∧ Spec.cells (fun _ => true) .uint8 sample = [⟨0, 1, 1⟩, ⟨3, 3, 7⟩]
    ∧ (after (fun _ => true) .uint8 sample).g.raw = 0b111001 := by decide +kernel
