import Verif.Bits.Group
/-! C15 : export of a group of bit fields and re-creation from the exported data. -/
namespace Verif.Bits

open Verif.Wire

/-- Width of an item. -/
def Item.width : Item → Nat
  | .field f => f.width
  | .pad w _ => w

/-- The name-to-field dictionary resulting from adding items in order (a later field replaces an
earlier one of the same name). -/
def fieldsOf (items : List (Nat × Item)) : List (String × Field) :=
  items.foldl (fun d p => match p.2 with
    | .field f => dset d f.name f
    | .pad _ _ => d) []

/-- Apart from flags, no item repeats the name of an earlier one. -/
def FreshNames (items : List (Nat × Item)) : Prop :=
  ∀ a i f b, items = a ++ (i, Item.field f) :: b → f.width ≠ 1 →
    (fieldsOf a).any (·.1 == f.name) = false

/-- The exported form of one item of a primitive holding `raw`. -/
def entryOf (raw : Int) : Nat × Item → Entry
  | (i, .pad w v) => ⟨none, some i, w, v, none, false⟩
  | (_, .field f) => ⟨some f.name, some f.index, f.width, readField raw f.index f.width, f.enum,
      f.commandable⟩

theorem asdict_entries (g : Group) : g.asdict.entries = g.byIndex.map (entryOf g.raw) := by
  unfold Group.asdict
  simp only
  apply List.map_congr_left
  rintro ⟨i, item⟩ _
  cases item <;> rfl

/-- A group that its exported data describes completely: items are non-empty, lie inside the
primitive, share no bit; names are acceptable and, apart from flags, not repeated; padding is
zero; bits outside the items are zero. `C15_reachable` shows how such groups arise. -/
structure Sound (validName : String → Bool) (k : IntKind) (raw : Int)
    (items : List (Nat × Item)) : Prop where
  packed : packable k.size k.signed raw = true
  inside : ∀ p ∈ items, 0 < p.2.width ∧ p.1 + p.2.width ≤ k.bits
  disjoint : items.Pairwise (fun p q => ∀ b, ¬ (Spec.Covers p.1 p.2.width b ∧
    Spec.Covers q.1 q.2.width b))
  field : ∀ i f, (i, Item.field f) ∈ items → f.index = i ∧ validName f.name = true
  names : FreshNames items
  pads : ∀ i w v, (i, Item.pad w v) ∈ items → v = 0 ∧ readField raw i w = 0
  rest : ∀ b, (patt k.bits raw).testBit b = true → ∃ p ∈ items, Spec.Covers p.1 p.2.width b

theorem fieldsOf_field (a : List (Nat × Item)) (i : Nat) (f : Field) :
    fieldsOf (a ++ [(i, .field f)]) = dset (fieldsOf a) f.name f := by
  simp [fieldsOf, List.foldl_append]

theorem fieldsOf_pad (a : List (Nat × Item)) (i w : Nat) (v : Int) :
    fieldsOf (a ++ [(i, .pad w v)]) = fieldsOf a := by
  simp [fieldsOf, List.foldl_append]

theorem FreshNames.snoc {items : List (Nat × Item)} (h : FreshNames items) (p : Nat × Item)
    (hp : ∀ i f, p = (i, .field f) → f.width ≠ 1 → (fieldsOf items).any (·.1 == f.name) = false) :
    FreshNames (items ++ [p]) := by
  intro a i f b he hw
  rcases List.eq_nil_or_concat b with rfl | ⟨b', y, rfl⟩
  · obtain ⟨rfl, h2⟩ := List.append_inj' he rfl
    exact hp i f (by simpa using h2) hw
  · rw [List.concat_eq_append, ← List.cons_append, ← List.append_assoc] at he
    obtain ⟨h1, h2⟩ := List.append_inj' he rfl
    exact h a i f b' h1 hw

/-- State of the loading loop after a prefix of the items. -/
structure Loaded (k : IntKind) (raw : Int) (done : List (Nat × Item)) (g : Group) : Prop where
  kind : g.kind = k
  fin : g.finalized = false
  byIndex : g.byIndex = done
  fields : g.fields = fieldsOf done
  avail : ∀ b, g.avail b = true ↔ (b < k.bits ∧ ∀ p ∈ done, ¬ Spec.Covers p.1 p.2.width b)
  packed : packable k.size k.signed g.raw = true
  bits : ∀ b, (patt k.bits g.raw).testBit b = true ↔
    ((patt k.bits raw).testBit b = true ∧ ∃ p ∈ done, Spec.Covers p.1 p.2.width b)

theorem loaded_claim {k : IntKind} {raw : Int} {done : List (Nat × Item)} {g : Group}
    (hl : Loaded k raw done g) (i w : Nat) (hin : i + w ≤ k.bits)
    (hd : ∀ p ∈ done, ∀ b, ¬ (Spec.Covers p.1 p.2.width b ∧ Spec.Covers i w b)) :
    ∃ g', g.claim w (some (i : Int)) = .ok (g', i) ∧ g'.kind = k ∧ g'.finalized = false
      ∧ g'.byIndex = done ∧ g'.fields = fieldsOf done ∧ g'.raw = g.raw
      ∧ (∀ b, g'.avail b = true ↔ (g.avail b = true ∧ ¬ Spec.Covers i w b)) := by
  have hok : ∃ g', g.claim w (some (i : Int)) = .ok (g', i) := by
    unfold Group.claim
    rw [if_neg (by rw [hl.fin]; decide)]
    simp only [Option.getD_some]
    rw [if_neg (by omega), if_pos]
    · exact ⟨_, rfl⟩
    · rw [List.all_eq_true]
      intro x hx
      rw [List.mem_range] at hx
      simp only [Int.toNat_natCast]
      exact (hl.avail _).mpr ⟨by omega, fun p hp hc => hd p hp _ ⟨hc, ⟨by omega, by omega⟩⟩⟩
  obtain ⟨g', hg'⟩ := hok
  obtain ⟨-, -, -, rfl⟩ := claim_ok hg'
  refine ⟨_, hg', hl.kind, hl.fin, hl.byIndex, hl.fields, rfl, ?_⟩
  intro b
  simp only [Bool.and_eq_true, Bool.not_eq_true', Bool.and_eq_false_iff, decide_eq_false_iff_not,
    Spec.Covers]
  constructor
  · rintro ⟨h1, h2⟩; exact ⟨h1, by omega⟩
  · rintro ⟨h1, h2⟩; exact ⟨h1, by omega⟩

theorem any_keys_false (done : List (Nat × Item)) (i w : Nat) (hw : 0 < w)
    (hpos : ∀ p ∈ done, 0 < p.2.width)
    (hd : ∀ p ∈ done, ∀ b, ¬ (Spec.Covers p.1 p.2.width b ∧ Spec.Covers i w b)) :
    done.any (·.1 == i) = false := by
  rw [List.any_eq_false]
  intro p hp he
  rw [beq_iff_eq] at he
  have := hpos p hp
  exact hd p hp i ⟨⟨by omega, by omega⟩, ⟨by omega, by omega⟩⟩

theorem load_bits {k : IntKind} {raw : Int} {done : List (Nat × Item)} {g : Group}
    (hl : Loaded k raw done g) (i w : Nat) (hin : i + w ≤ k.bits) (item : Item)
    (hiw : item.width = w) (v : Int) (hv : v = readField raw i w) (b : Nat) :
    (patt k.bits (writeField k g.raw i w v).1).testBit b = true ↔
      ((patt k.bits raw).testBit b = true ∧ ∃ p ∈ done ++ [(i, item)], Spec.Covers p.1 p.2.width b) := by
  rw [writeField_patt _ _ _ _ _ (Or.inr hin), testBit_setBits]
  by_cases hc : i ≤ b ∧ b < i + w
  · rw [if_pos hc, hv, readField_patt _ _ _ _ hin]
    have e1 : (((patt k.bits raw / 2 ^ i % 2 ^ w : Nat) : Int) % 2 ^ w).toNat
        = patt k.bits raw / 2 ^ i % 2 ^ w := by
      have : (((patt k.bits raw / 2 ^ i % 2 ^ w : Nat) : Int) % 2 ^ w)
          = ((patt k.bits raw / 2 ^ i % 2 ^ w % 2 ^ w : Nat) : Int) := by push_cast; rfl
      rw [this, Nat.mod_mod, Int.toNat_natCast]
    rw [e1, Nat.testBit_mod_two_pow, Nat.testBit_div_two_pow, show b - i + i = b by omega]
    have : b - i < w := by omega
    simp only [this, decide_true, Bool.true_and]
    refine ⟨fun h => ⟨h, (i, item), by simp, by subst hiw; exact hc⟩, fun h => h.1⟩
  · rw [if_neg hc, hl.bits b]
    refine ⟨fun ⟨h, p, hp, hp'⟩ => ⟨h, p, by simp [hp], hp'⟩, fun ⟨h, p, hp, hp'⟩ => ⟨h, p, ?_, hp'⟩⟩
    rcases List.mem_append.mp hp with h' | h'
    · exact h'
    · rw [List.mem_singleton] at h'; subst h'; subst hiw; exact absurd hp' hc

theorem load_step (validName : String → Bool) (hempty : validName "" = false) (k : IntKind)
    (raw : Int) (done : List (Nat × Item)) (p : Nat × Item) (rest : List (Nat × Item))
    (hs : Sound validName k raw (done ++ p :: rest)) (g : Group) (hl : Loaded k raw done g) :
    ∃ g', g.load validName (entryOf raw p) = .ok g' ∧ Loaded k raw (done ++ [p]) g' := by
  obtain ⟨i, item⟩ := p
  have hmem : (i, item) ∈ done ++ (i, item) :: rest := by simp
  obtain ⟨hpos, hin⟩ := hs.inside _ hmem
  dsimp only at hpos hin
  have hdis : ∀ q ∈ done, ∀ b, ¬ (Spec.Covers q.1 q.2.width b ∧ Spec.Covers i item.width b) := by
    intro q hq
    exact (List.pairwise_append.mp hs.disjoint).2.2 q hq (i, item) (by simp)
  have hposd : ∀ q ∈ done, 0 < q.2.width := fun q hq => (hs.inside q (by simp [hq])).1
  obtain ⟨g', hcl, c1, c2, c3, c4, c5, c6⟩ := loaded_claim hl i item.width hin hdis
  have hkey := any_keys_false done i item.width hpos hposd hdis
  have havail : ∀ b, g'.avail b = true ↔ (b < k.bits ∧ ∀ q ∈ done ++ [(i, item)],
      ¬ Spec.Covers q.1 q.2.width b) := by
    intro b
    rw [c6, hl.avail]
    constructor
    · rintro ⟨⟨h1, h2⟩, h3⟩
      refine ⟨h1, fun q hq => ?_⟩
      rcases List.mem_append.mp hq with h' | h'
      · exact h2 q h'
      · rw [List.mem_singleton] at h'; subst h'; exact h3
    · rintro ⟨h1, h2⟩
      exact ⟨⟨h1, fun q hq => h2 q (by simp [hq])⟩, h2 (i, item) (by simp)⟩
  cases item with
  | pad w v =>
    obtain ⟨rfl, hv0⟩ := hs.pads i w v hmem
    simp only [Item.width] at *
    refine ⟨{ g' with raw := (writeField g'.kind g'.raw i w 0).1, byIndex := dset g'.byIndex i (.pad w 0) }, ?_, ?_⟩
    · simp [Group.load, entryOf, Group.pad, hcl]
    · refine ⟨c1, c2, ?_, ?_, havail, ?_, ?_⟩
      · dsimp only; rw [c3, dset_fresh _ _ _ hkey]
      · dsimp only; rw [c4, fieldsOf_pad]
      · dsimp only; rw [c1]; exact writeField_packable _ _ _ _ _
      · dsimp only; rw [c1, c5]
        exact load_bits hl i w hin (.pad w 0) rfl 0 hv0.symm
  | field f =>
    obtain ⟨rfl, hvn⟩ := hs.field i f hmem
    have hne : f.name ≠ "" := by intro h; rw [h, hempty] at hvn; cases hvn
    have hok : fieldOk validName k f.name f.index f.width = true := by
      simp only [fieldOk, Bool.and_eq_true, decide_eq_true_eq]
      simp only [Item.width] at hpos hin
      exact ⟨⟨by omega, by omega⟩, hvn⟩
    have hfresh : f.width ≠ 1 → (fieldsOf done).any (·.1 == f.name) = false :=
      hs.names done f.index f rest rfl
    simp only [Item.width] at *
    have hfinal : Loaded k raw (done ++ [(f.index, .field f)])
        { g' with
          fields := dset g'.fields f.name f, byIndex := dset g'.byIndex f.index (.field f)
          raw := (writeField g'.kind g'.raw f.index f.width (readField raw f.index f.width)).1 } := by
      refine ⟨c1, c2, ?_, ?_, havail, ?_, ?_⟩
      · dsimp only; rw [c3, dset_fresh _ _ _ hkey]
      · dsimp only; rw [c4, fieldsOf_field]
      · dsimp only; rw [c1]; exact writeField_packable _ _ _ _ _
      · dsimp only; rw [c1, c5]
        exact load_bits hl f.index f.width hin (.field f) rfl _ rfl
    by_cases hw1 : f.width = 1
    · refine ⟨_, ?_, hfinal⟩
      obtain ⟨fn, fi, fw, fe, fc⟩ := f
      dsimp only at *
      subst hw1
      simp only [Group.load, entryOf, if_neg hne, if_true, Group.flag, hcl, c1, hok, Group.write]
    · refine ⟨_, ?_, hfinal⟩
      obtain ⟨fn, fi, fw, fe, fc⟩ := f
      dsimp only at *
      simp only [Group.load, entryOf, if_neg hne, if_neg hw1, Group.field, hcl, c1, hok, if_true,
        Group.write, c4, hfresh hw1, Bool.false_eq_true, if_false]

theorem load_all (validName : String → Bool) (hempty : validName "" = false) (k : IntKind)
    (raw : Int) (rest done : List (Nat × Item))
    (hs : Sound validName k raw (done ++ rest)) (g : Group) (hl : Loaded k raw done g) :
    ∃ g', g.loadAll validName (rest.map (entryOf raw)) = .ok g' ∧ Loaded k raw (done ++ rest) g' := by
  induction rest generalizing done g with
  | nil => exact ⟨g, rfl, by simpa using hl⟩
  | cons p rest ih =>
    obtain ⟨g1, h1, hl1⟩ := load_step validName hempty k raw done p rest hs g hl
    obtain ⟨g2, h2, hl2⟩ := ih (done ++ [p]) (by simpa using hs) g1 hl1
    refine ⟨g2, ?_, by simpa using hl2⟩
    simp only [List.map_cons, Group.loadAll, h1, h2]

/-- C15. A sound group survives export and re-creation: the stored integer, the fields by name
and by position (with order, enumeration, writability) and the finalised state are all the same,
and exporting again gives the same data. -/
theorem C15_export_import (validName : String → Bool) (hempty : validName "" = false) (g : Group)
    (hs : Sound validName g.kind g.raw g.byIndex) (hf : g.fields = fieldsOf g.byIndex) :
    ∃ g', Group.create validName g.asdict = .ok g' ∧ g'.kind = g.kind ∧ g'.raw = g.raw
      ∧ g'.byIndex = g.byIndex ∧ g'.fields = g.fields ∧ g'.finalized = g.finalized
      ∧ g'.asdict = g.asdict := by
  have hnew : Loaded g.kind g.raw [] (Group.new g.kind) := by
    refine ⟨rfl, rfl, rfl, rfl, ?_, ?_, ?_⟩
    · intro b; simp [Group.new]
    · exact (inv_after validName g.kind []).packed
    · intro b
      have : patt g.kind.bits (Group.new g.kind).raw = 0 := by
        show patt g.kind.bits 0 = 0
        simp [patt]
      rw [this]; simp
  obtain ⟨g', h1, hl⟩ := load_all validName hempty g.kind g.raw g.byIndex [] (by simpa using hs)
    (Group.new g.kind) hnew
  rw [List.nil_append] at hl
  have hraw : g'.raw = g.raw := by
    apply patt_inj g.kind _ _ hl.packed hs.packed
    apply Nat.eq_of_testBit_eq
    intro b
    rw [Bool.eq_iff_iff, hl.bits b]
    exact ⟨fun h => h.1, fun h => ⟨h, hs.rest b h⟩⟩
  refine ⟨{ g' with finalized := g.finalized }, ?_, hl.kind, hraw, hl.byIndex, ?_, rfl, ?_⟩
  · unfold Group.create
    have : g.asdict.kind = g.kind := rfl
    rw [asdict_entries, this, h1]
    rfl
  · rw [hf]; exact hl.fields
  · unfold Group.asdict
    simp only [hl.kind, hl.byIndex, hraw]

/-! ### Which groups are sound -/

namespace Spec

/-- A history in which every requested width is positive and padding is requested with value
zero and never written through (`pad` hands out no object to write through). -/
def Plain (validName : String → Bool) (k : IntKind) : List Op → Prop
  | [] => True
  | op :: rest => Plain validName k rest ∧
      match op with
      | .flag .. => True
      | .field _ w .. => 0 < w
      | .pad w _ v => 0 < w ∧ v = 0
      | .write h _ | .invert h => ∀ i w, (after validName k rest).handles[h]? = some (i, w) →
          ∀ w' v, (i, Item.pad w' v) ∉ (after validName k rest).g.byIndex
      | .finalize => True

end Spec

/-- Bookkeeping of a plain history. -/
structure Tidy (validName : String → Bool) (s : St) : Prop where
  shape : s.g.byIndex.map (fun p => (p.1, p.2.width)) = s.handles
  pos : ∀ p ∈ s.g.byIndex, 0 < p.2.width
  fields : s.g.fields = fieldsOf s.g.byIndex
  names : FreshNames s.g.byIndex
  field : ∀ i f, (i, Item.field f) ∈ s.g.byIndex → f.index = i ∧ validName f.name = true
  pads : ∀ i w v, (i, Item.pad w v) ∈ s.g.byIndex → v = 0 ∧ readField s.g.raw i w = 0

/-- Adding an object to a tidy state. -/
theorem Tidy.add {validName : String → Bool} {k : IntKind} {s : St} {cells : List Spec.Cell}
    (hi : Inv k s cells) (ht : Tidy validName s) {g' : Group} {w i : Nat} {idx : Option Int}
    (hcl : s.g.claim w idx = .ok (g', i)) (hw : 0 < w) (item : Item) (hiw : item.width = w) :
    dset g'.byIndex i item = s.g.byIndex ++ [(i, item)] ∧ g'.raw = s.g.raw
    ∧ g'.fields = s.g.fields
    ∧ (s.g.byIndex ++ [(i, item)]).map (fun p => (p.1, p.2.width)) = s.handles ++ [(i, w)]
    ∧ (∀ p ∈ s.g.byIndex ++ [(i, item)], 0 < p.2.width)
    ∧ (∀ p ∈ s.g.byIndex, ∀ b, ¬ (Spec.Covers p.1 p.2.width b ∧ Spec.Covers i w b)) := by
  obtain ⟨-, -, ha, rfl⟩ := claim_ok hcl
  have hdis : ∀ p ∈ s.g.byIndex, ∀ b, ¬ (Spec.Covers p.1 p.2.width b ∧ Spec.Covers i w b) := by
    intro p hp b ⟨h1, h2⟩
    have hm : (p.1, p.2.width) ∈ s.handles := by
      rw [← ht.shape]; exact List.mem_map_of_mem (f := fun p => (p.1, p.2.width)) hp
    rw [hi.handles] at hm
    obtain ⟨c, hc, he⟩ := List.mem_map.mp hm
    simp only [Prod.mk.injEq] at he
    have := hi.taken c hc b (by rw [he.1, he.2]; exact h1)
    rw [ha b h2] at this
    cases this
  refine ⟨dset_fresh _ _ _ (any_keys_false _ i w hw ht.pos hdis), rfl, rfl, ?_, ?_, hdis⟩
  · rw [List.map_append, ht.shape]; simp [hiw]
  · intro p hp
    rcases List.mem_append.mp hp with h | h
    · exact ht.pos p h
    · rw [List.mem_singleton] at h; subst h; rw [hiw]; exact hw

theorem tidy_after (validName : String → Bool) (k : IntKind) (ops : List Op)
    (hp : Spec.Plain validName k ops) : Tidy validName (after validName k ops) := by
  induction ops with
  | nil =>
    refine ⟨rfl, ?_, rfl, ?_, ?_, ?_⟩ <;> simp [after, Group.new, FreshNames]
  | cons op rest ih =>
    have ht := ih hp.1
    have hop := hp.2
    have hi := inv_after validName k rest
    show Tidy validName (step validName (after validName k rest) op).1
    generalize hsgen : after validName k rest = s at ht hop hi ⊢
    have hleak : ∀ (g' : Group) (w i : Nat) (idx : Option Int), s.g.claim w idx = .ok (g', i) →
        Tidy validName ⟨g', s.handles⟩ := by
      intro g' w i idx hcl
      obtain ⟨-, -, -, rfl⟩ := claim_ok hcl
      exact ⟨ht.shape, ht.pos, ht.fields, ht.names, ht.field, ht.pads⟩
    have haddf : ∀ (g' : Group) (f : Field) (idx : Option Int),
        s.g.claim f.width idx = .ok (g', f.index) → 0 < f.width → validName f.name = true →
        (f.width ≠ 1 → s.g.fields.any (·.1 == f.name) = false) →
        Tidy validName ⟨{ g' with
          fields := dset g'.fields f.name f, byIndex := dset g'.byIndex f.index (.field f) },
          s.handles ++ [(f.index, f.width)]⟩ := by
      intro g' f idx hcl hw hv hfresh
      obtain ⟨h1, h2, h3, h4, h5, h6⟩ := ht.add hi hcl hw (.field f) rfl
      refine ⟨?_, ?_, ?_, ?_, ?_, ?_⟩
      · dsimp only; rw [h1]; exact h4
      · dsimp only; rw [h1]; exact h5
      · dsimp only
        rw [h1, h3, fieldsOf_field, ht.fields]
      · dsimp only
        rw [h1]
        apply ht.names.snoc
        intro i f' he hw'
        simp only [Prod.mk.injEq, Item.field.injEq] at he
        obtain ⟨-, rfl⟩ := he
        rw [← ht.fields]; exact hfresh hw'
      · dsimp only
        intro i f' hf'
        rw [h1] at hf'
        rcases List.mem_append.mp hf' with h | h
        · exact ht.field i f' h
        · simp only [List.mem_singleton, Prod.mk.injEq, Item.field.injEq] at h
          obtain ⟨rfl, rfl⟩ := h; exact ⟨rfl, hv⟩
      · dsimp only
        intro i w v hm
        rw [h1] at hm
        rw [h2]
        rcases List.mem_append.mp hm with h | h
        · exact ht.pads i w v h
        · simp at h
    cases op with
    | flag n i e c =>
      simp only [step, Group.flag]
      cases hcl : s.g.claim 1 i with
      | error x => exact ht
      | ok r =>
        obtain ⟨g', i'⟩ := r
        dsimp only
        by_cases hok : fieldOk validName g'.kind n i' 1 = true
        · rw [if_pos hok]
          simp only [fieldOk, Bool.and_eq_true] at hok
          exact haddf g' ⟨n, i', 1, e, c⟩ i hcl Nat.one_pos hok.2 (fun h => absurd rfl h)
        · rw [if_neg hok]; exact hleak g' 1 i' i hcl
    | field n w i e c =>
      simp only [step, Group.field]
      by_cases hw1 : w = 1
      · rw [if_pos hw1]; exact ht
      rw [if_neg hw1]
      cases hcl : s.g.claim w i with
      | error x => exact ht
      | ok r =>
        obtain ⟨g', i'⟩ := r
        dsimp only
        by_cases hok : fieldOk validName g'.kind n i' w = true
        · rw [if_pos hok]
          by_cases hdup : g'.fields.any (·.1 == n) = true
          · rw [if_pos hdup]; exact hleak g' w i' i hcl
          · rw [if_neg hdup]
            simp only [fieldOk, Bool.and_eq_true] at hok
            obtain ⟨-, -, -, hge⟩ := claim_ok hcl
            refine haddf g' ⟨n, i', w, e, c⟩ i hcl hop hok.2 (fun _ => ?_)
            rw [hge] at hdup
            exact Bool.eq_false_iff.mpr hdup
        · rw [if_neg hok]; exact hleak g' w i' i hcl
    | pad w i v =>
      obtain ⟨hw, rfl⟩ := hop
      have hinv := inv_after validName k (.pad w i 0 :: rest)
      simp only [after, hsgen, Spec.cells] at hinv
      simp only [step, Group.pad] at hinv ⊢
      cases hcl : s.g.claim w i with
      | error x => exact ht
      | ok r =>
        obtain ⟨g', i'⟩ := r
        rw [hcl] at hinv
        dsimp only at hinv ⊢
        have hin : w = 0 ∨ i' + w ≤ k.bits := hinv.inside ⟨i', w, ((0 : Int) % 2 ^ w).toNat⟩
          (by simp [Spec.next, allocOut])
        have hin : i' + w ≤ k.bits := by omega
        obtain ⟨h1, h2, h3, h4, h5, h6⟩ := ht.add hi hcl hw (.pad w 0) rfl
        have hkind : g'.kind = k := by obtain ⟨-, -, -, rfl⟩ := claim_ok hcl; exact hi.kind
        have hread : ∀ (a b : Nat), a + b ≤ k.bits → (∀ j, ¬ (Spec.Covers a b j ∧ Spec.Covers i' w j)) →
            readField (writeField g'.kind g'.raw i' w 0).1 a b = readField s.g.raw a b := by
          intro a b hab hd
          rw [hkind, h2, readField_patt _ _ _ _ hab, readField_patt _ _ _ _ hab,
            writeField_patt _ _ _ _ _ (Or.inr hin), read_setBits_other]
          intro j h1 h2 h3; exact hd j ⟨⟨h1, h2⟩, h3⟩
        refine ⟨?_, ?_, ?_, ?_, ?_, ?_⟩
        · show (dset g'.byIndex i' (.pad w 0)).map _ = s.handles ++ [(i', w)]
          rw [h1]; exact h4
        · show ∀ p ∈ dset g'.byIndex i' (.pad w 0), _
          rw [h1]; exact h5
        · show g'.fields = fieldsOf (dset g'.byIndex i' (.pad w 0))
          rw [h1, h3, fieldsOf_pad, ht.fields]
        · show FreshNames (dset g'.byIndex i' (.pad w 0))
          rw [h1]
          exact ht.names.snoc _ (fun i f he => by simp at he)
        · intro j f hf
          change (j, Item.field f) ∈ dset g'.byIndex i' (.pad w 0) at hf
          rw [h1] at hf
          rcases List.mem_append.mp hf with h | h
          · exact ht.field j f h
          · simp at h
        · intro j w' v' hm
          change (j, Item.pad w' v') ∈ dset g'.byIndex i' (.pad w 0) at hm
          show v' = 0 ∧ readField (writeField g'.kind g'.raw i' w 0).1 j w' = 0
          rw [h1] at hm
          rcases List.mem_append.mp hm with h | h
          · obtain ⟨a1, a2⟩ := ht.pads j w' v' h
            refine ⟨a1, ?_⟩
            have hh : (j, w') ∈ s.handles := by
              rw [← ht.shape]
              exact List.mem_map_of_mem (f := fun p : Nat × Item => (p.1, p.2.width)) h
            rw [hi.handles] at hh
            obtain ⟨c, hc, he⟩ := List.mem_map.mp hh
            simp only [Prod.mk.injEq] at he
            rw [hread j w' ?_ (h6 _ h), a2]
            rcases hi.inside c hc with h0 | h1'
            · have := ht.pos _ h; simp only [Item.width] at this; omega
            · omega
          · simp only [List.mem_singleton, Prod.mk.injEq, Item.pad.injEq] at h
            obtain ⟨rfl, rfl, rfl⟩ := h
            refine ⟨rfl, ?_⟩
            rw [hkind, (C11_write_read k g'.raw j w' 0 hin).2.1]
            simp
    | write h v =>
      simp only [step]
      cases hh : s.handles[h]? with
      | none => exact ht
      | some q =>
        obtain ⟨i, w⟩ := q
        refine ⟨ht.shape, ht.pos, ht.fields, ht.names, ht.field, ?_⟩
        intro j w' v' hm
        obtain ⟨a1, a2⟩ := ht.pads j w' v' hm
        refine ⟨a1, ?_⟩
        have hnot := hop i w hh
        have e : (s.g.write i w v).1.raw = (writeField k s.g.raw i w v).1 := by
          simp [Group.write, hi.kind]
        show readField (s.g.write i w v).1.raw j w' = 0
        rw [e, ← a2]
        exact read_pad_other hi ht hh hm hnot v
    | invert h =>
      simp only [step]
      cases hh : s.handles[h]? with
      | none => exact ht
      | some q =>
        obtain ⟨i, w⟩ := q
        refine ⟨ht.shape, ht.pos, ht.fields, ht.names, ht.field, ?_⟩
        intro j w' v' hm
        obtain ⟨a1, a2⟩ := ht.pads j w' v' hm
        refine ⟨a1, ?_⟩
        have hnot := hop i w hh
        show readField (invertField s.g.kind s.g.raw i w).1 j w' = 0
        rw [invertField, hi.kind, ← a2]
        exact read_pad_other hi ht hh hm hnot _
    | finalize => exact ⟨ht.shape, ht.pos, ht.fields, ht.names, ht.field, ht.pads⟩
where
  read_pad_other {s : St} {cells : List Spec.Cell} (hi : Inv k s cells)
      (ht : Tidy validName s) {h i w : Nat} (hh : s.handles[h]? = some (i, w)) {j w' : Nat}
      {v' : Int} (hm : (j, Item.pad w' v') ∈ s.g.byIndex)
      (hnot : ∀ w' v, (i, Item.pad w' v) ∉ s.g.byIndex) (v : Int) :
      readField (writeField k s.g.raw i w v).1 j w' = readField s.g.raw j w' := by
    have hp := hi.disjoint
    have hp' : s.handles.Pairwise (fun c d => ∀ b, ¬ (Spec.Covers c.1 c.2 b ∧ Spec.Covers d.1 d.2 b)) := by
      rw [hi.handles, List.pairwise_map]; exact hp
    have hm' : (j, w') ∈ s.handles := by
      rw [← ht.shape]; exact List.mem_map_of_mem (f := fun p : Nat × Item => (p.1, p.2.width)) hm
    have hin : ∀ a b, (a, b) ∈ s.handles → a + b ≤ k.bits := by
      intro a b hab
      have hpos : 0 < b := by
        rw [← ht.shape] at hab
        obtain ⟨p, hp, he⟩ := List.mem_map.mp hab
        simp only [Prod.mk.injEq] at he
        rw [← he.2]; exact ht.pos p hp
      rw [hi.handles] at hab
      obtain ⟨c, hc, he⟩ := List.mem_map.mp hab
      simp only [Prod.mk.injEq] at he
      rcases hi.inside c hc with h0 | h1 <;> omega
    have hne : j ≠ i := by rintro rfl; exact hnot _ _ hm
    rw [readField_patt _ _ _ _ (hin j w' hm'), readField_patt _ _ _ _ (hin j w' hm'),
      writeField_patt _ _ _ _ _ (Or.inr (hin i w (List.mem_of_getElem? hh))), read_setBits_other]
    intro b hb1 hb2 hcov
    obtain ⟨m, hmm⟩ := List.mem_iff_getElem?.mp hm'
    obtain ⟨m1, m2⟩ := List.getElem?_eq_some_iff.mp hmm
    obtain ⟨n1, n2⟩ := List.getElem?_eq_some_iff.mp hh
    have hmh : m ≠ h := by
      rintro rfl
      rw [m2] at n2; simp only [Prod.mk.injEq] at n2; exact hne n2.1
    rcases Nat.lt_or_ge m h with hl | hg
    · have := List.pairwise_iff_getElem.mp hp' m h m1 n1 hl b
      rw [m2, n2] at this; exact this ⟨⟨hb1, hb2⟩, hcov⟩
    · have := List.pairwise_iff_getElem.mp hp' h m n1 m1 (by omega) b
      rw [m2, n2] at this; exact this ⟨hcov, ⟨hb1, hb2⟩⟩

/-- Groups built by positive-width requests with zero padding are sound. -/
theorem sound_after (validName : String → Bool) (k : IntKind) (ops : List Op) (hp : Spec.Plain validName k ops) :
    Sound validName (after validName k ops).g.kind (after validName k ops).g.raw (after validName k ops).g.byIndex := by
  have ht := tidy_after validName k ops hp
  have hi := inv_after validName k ops
  have hmem : ∀ p ∈ (after validName k ops).g.byIndex, ∃ c ∈ Spec.cells validName k ops,
      c.index = p.1 ∧ c.width = p.2.width := by
    intro p hp
    have : (p.1, p.2.width) ∈ (after validName k ops).handles := by
      rw [← ht.shape]; exact List.mem_map_of_mem (f := fun p : Nat × Item => (p.1, p.2.width)) hp
    rw [hi.handles] at this
    obtain ⟨c, hc, he⟩ := List.mem_map.mp this
    simp only [Prod.mk.injEq] at he
    exact ⟨c, hc, he⟩
  rw [hi.kind]
  refine ⟨hi.packed, ?_, ?_, ht.field, ht.names, ht.pads, ?_⟩
  · intro p hp
    obtain ⟨c, hc, e1, e2⟩ := hmem p hp
    have hpos := ht.pos p hp
    refine ⟨hpos, ?_⟩
    rcases hi.inside c hc with h | h <;> omega
  · have hd : (after validName k ops).handles.Pairwise
        (fun c d => ∀ b, ¬ (Spec.Covers c.1 c.2 b ∧ Spec.Covers d.1 d.2 b)) := by
      rw [hi.handles, List.pairwise_map]; exact hi.disjoint
    rw [← ht.shape, List.pairwise_map] at hd
    exact hd
  · intro b hb
    obtain ⟨c, hc, hcov⟩ := hi.rest_zero b hb
    have : (c.index, c.width) ∈ (after validName k ops).handles := by
      rw [hi.handles]; exact List.mem_map_of_mem (f := fun c : Spec.Cell => (c.index, c.width)) hc
    rw [← ht.shape] at this
    obtain ⟨p, hp, he⟩ := List.mem_map.mp this
    simp only [Prod.mk.injEq] at he
    exact ⟨p, hp, by rw [he.1, he.2]; exact hcov⟩

/-- C15. Every group built by positive-width requests with zero padding — in any order, at any position, with any failing calls, writes and inversions in
between — survives export and re-creation exactly. -/
theorem C15_reachable_partial (validName : String → Bool) (hempty : validName "" = false)
    (k : IntKind) (ops : List Op) (hp : Spec.Plain validName k ops) :
    let g := (after validName k ops).g
    ∃ g', Group.create validName g.asdict = .ok g' ∧ g'.kind = g.kind ∧ g'.raw = g.raw
      ∧ g'.byIndex = g.byIndex ∧ g'.fields = g.fields ∧ g'.finalized = g.finalized
      ∧ g'.asdict = g.asdict := by
  exact C15_export_import validName hempty _ (sound_after validName k ops hp) (tidy_after validName k ops hp).fields

/-- A name check that rejects the empty name. -/
def someName (n : String) : Bool := n != ""

/-- A flag, zero padding, a field at the top, a failed call and two writes. -/
def plainSample : List Op :=
  [.finalize, .write 2 5, .write 0 1, .field "c" 9 (some 0) none false,
    .field "b" 3 (some 5) (some 2) true, .pad 2 none 0, .flag "a" none none false]

example : Spec.Plain someName .uint8 plainSample := by
  refine ⟨⟨⟨⟨⟨⟨⟨trivial, ?_⟩, ?_⟩, ?_⟩, ?_⟩, ?_⟩, ?_⟩, trivial⟩
  · trivial
  · exact ⟨by decide, rfl⟩
  · decide
  · decide
  · intro i w h
    have e : (after someName .uint8 [.field "c" 9 (some 0) none false,
      .field "b" 3 (some 5) (some 2) true, .pad 2 none 0, .flag "a" none none false]).handles[0]?
      = some (0, 1) := by decide +kernel
    rw [e] at h; cases h
    intro w' v hm
    have e2 : (after someName .uint8 [.field "c" 9 (some 0) none false,
      .field "b" 3 (some 5) (some 2) true, .pad 2 none 0, .flag "a" none none false]).g.byIndex
      = [(0, .field ⟨"a", 0, 1, none, false⟩), (1, .pad 2 0), (5, .field ⟨"b", 5, 3, some 2, true⟩)] := by
      decide +kernel
    rw [e2] at hm; simp at hm
  · intro i w h
    have e : (after someName .uint8 [.write 0 1, .field "c" 9 (some 0) none false,
      .field "b" 3 (some 5) (some 2) true, .pad 2 none 0, .flag "a" none none false]).handles[2]?
      = some (5, 3) := by decide +kernel
    rw [e] at h; cases h
    intro w' v hm
    have e2 : (after someName .uint8 [.write 0 1, .field "c" 9 (some 0) none false,
      .field "b" 3 (some 5) (some 2) true, .pad 2 none 0, .flag "a" none none false]).g.byIndex
      = [(0, .field ⟨"a", 0, 1, none, false⟩), (1, .pad 2 0), (5, .field ⟨"b", 5, 3, some 2, true⟩)] := by
      decide +kernel
    rw [e2] at hm; simp at hm

example : (after someName .uint8 plainSample).g.raw = 0b10100001 := by decide +kernel

/-- Padding with a value is exported with that value and cannot be imported again
(fields.py 64). -/
theorem C15_nonzero_padding_fails :
    (Group.create someName (after someName .uint8 [.pad 4 none 3]).g.asdict).toOption.isNone = true := by
  decide +kernel

/-- A zero-width field is accepted, but the next field at its position takes its place in the
exported list, so it is missing after re-creation. -/
theorem C15_zero_width_fails :
    let g := (after someName .uint8 [.field "b" 2 none none false, .field "z" 0 none none false]).g
    (g.getByName "z").isSome = true
    ∧ ((Group.create someName g.asdict).toOption.bind (·.getByName "z")) = none
    ∧ (Group.create someName g.asdict).toOption.isSome = true := by
  decide +kernel

/-- An entry with an empty name as one without a name. -/
def Entry.unname (e : Entry) : Entry := if e.name = some "" then { e with name := none } else e

/-- C15. An empty name in the data means padding, just as a missing one. -/
theorem C15_empty_name (validName : String → Bool) (d : Data) :
    Group.create validName { d with entries := d.entries.map Entry.unname } = Group.create validName d := by
  have h1 : ∀ (g : Group) (e : Entry), g.load validName e.unname = g.load validName e := by
    intro g e
    unfold Entry.unname
    by_cases h : e.name = some ""
    · rw [if_pos h]; unfold Group.load; simp only [h, if_true]
    · rw [if_neg h]
  have h2 : ∀ (es : List Entry) (g : Group), g.loadAll validName (es.map Entry.unname) = g.loadAll validName es := by
    intro es
    induction es with
    | nil => intro g; rfl
    | cons e es ih =>
      intro g
      simp only [List.map_cons, Group.loadAll, h1]
      cases g.load validName e with
      | ok g' => exact ih g'
      | error x => rfl
  unfold Group.create
  rw [h2]

/-- C15. Padding with a value or with an enumeration is refused, wherever it stands (fields.py 64–65). -/
theorem C15_padding_refused (validName : String → Bool) (d : Data) (e : Entry) (he : e ∈ d.entries) (hn : e.name = none ∨ e.name = some "")
    (hv : e.value ≠ 0 ∨ e.enum ≠ none) : ∃ x, Group.create validName d = .error x := by
  have h1 : ∀ g : Group, g.load validName e = .error .assertion := by
    intro g
    unfold Group.load
    by_cases h0 : e.value ≠ 0
    · rcases hn with hn | hn <;> simp [hn, h0]
    · have hs : e.enum.isSome = true := by
        rcases hv with hv | hv
        · exact absurd hv h0
        · exact Option.isSome_iff_ne_none.mpr hv
      rcases hn with hn | hn <;> simp [hn, h0, hs]
  have h2 : ∀ (es : List Entry) (g : Group), e ∈ es → ∃ x, g.loadAll validName es = .error x := by
    intro es
    induction es with
    | nil => intro g h; cases h
    | cons a es ih =>
      intro g h
      rw [Group.loadAll]
      rcases List.mem_cons.mp h with rfl | h
      · rw [h1 g]; exact ⟨_, rfl⟩
      · cases g.load validName a with
        | ok g' => exact ih g' h
        | error x => exact ⟨x, rfl⟩
  obtain ⟨x, hx⟩ := h2 d.entries (Group.new d.kind) he
  exact ⟨x, by unfold Group.create; rw [hx]⟩

example : (⟨none, some 0, 4, 3, none, false⟩ : Entry) ∈ (after someName .uint8 [.pad 4 none 3]).g.asdict.entries := by
  decide +kernel

end Verif.Bits
