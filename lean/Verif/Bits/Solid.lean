import Verif.Bits.RoundTrip
/-! The layout of a group survives export and re-creation whatever its primitive holds. -/
namespace Verif.Bits

open Verif.Wire

/-- A group whose layout its exported data describes: as `Sound`, without a condition on the value
in the primitive. -/
structure Solid (validName : String → Bool) (k : IntKind) (items : List (Nat × Item)) : Prop where
  inside : ∀ p ∈ items, 0 < p.2.width ∧ p.1 + p.2.width ≤ k.bits
  disjoint : items.Pairwise (fun p q => ∀ b, ¬ (Spec.Covers p.1 p.2.width b ∧
    Spec.Covers q.1 q.2.width b))
  field : ∀ i f, (i, Item.field f) ∈ items → f.index = i ∧ validName f.name = true
  names : FreshNames items
  pads : ∀ i w v, (i, Item.pad w v) ∈ items → v = 0

theorem Sound.solid {validName : String → Bool} {k : IntKind} {raw : Int} {items : List (Nat × Item)}
    (s : Sound validName k raw items) : Solid validName k items :=
  ⟨s.inside, s.disjoint, s.field, s.names, fun i w v h => (s.pads i w v h).1⟩

/-- State of the loading loop after a prefix of the items. -/
structure Laid (k : IntKind) (done : List (Nat × Item)) (g : Group) : Prop where
  kind : g.kind = k
  fin : g.finalized = false
  byIndex : g.byIndex = done
  fields : g.fields = fieldsOf done
  avail : ∀ b, g.avail b = true ↔ (b < k.bits ∧ ∀ p ∈ done, ¬ Spec.Covers p.1 p.2.width b)

theorem laid_claim {k : IntKind} {done : List (Nat × Item)} {g : Group}
    (hl : Laid k done g) (i w : Nat) (hin : i + w ≤ k.bits)
    (hd : ∀ p ∈ done, ∀ b, ¬ (Spec.Covers p.1 p.2.width b ∧ Spec.Covers i w b)) :
    ∃ g', g.claim w (some (i : Int)) = .ok (g', i) ∧ g'.kind = k ∧ g'.finalized = false
      ∧ g'.byIndex = done ∧ g'.fields = fieldsOf done
      ∧ (∀ b, g'.avail b = true ↔ (g.avail b = true ∧ ¬ Spec.Covers i w b)) := by
  have hok : ∃ g', g.claim w (some (i : Int)) = .ok (g', i) := by
    unfold Group.claim
    rw [if_neg (by rw [hl.fin]; decide)]
    simp only [Option.getD_some]
    rw [if_neg (by omega), if_pos]
    · exact ⟨_, rfl⟩
    · rw [List.all_eq_true]
      intro x hx
      rw [List.mem_range] at hx
      simp only [Int.toNat_natCast]
      exact (hl.avail _).mpr ⟨by omega, fun p hp hc => hd p hp _ ⟨hc, ⟨by omega, by omega⟩⟩⟩
  obtain ⟨g', hg'⟩ := hok
  obtain ⟨-, -, -, rfl⟩ := claim_ok hg'
  refine ⟨_, hg', hl.kind, hl.fin, hl.byIndex, hl.fields, ?_⟩
  intro b
  simp only [Bool.and_eq_true, Bool.not_eq_true', Bool.and_eq_false_iff, decide_eq_false_iff_not,
    Spec.Covers]
  constructor
  · rintro ⟨h1, h2⟩; exact ⟨h1, by omega⟩
  · rintro ⟨h1, h2⟩; exact ⟨h1, by omega⟩

theorem laid_step (validName : String → Bool) (hempty : validName "" = false) (k : IntKind)
    (raw : Int) (done : List (Nat × Item)) (p : Nat × Item) (rest : List (Nat × Item))
    (hs : Solid validName k (done ++ p :: rest)) (g : Group) (hl : Laid k done g) :
    ∃ g', g.load validName (entryOf raw p) = .ok g' ∧ Laid k (done ++ [p]) g' := by
  obtain ⟨i, item⟩ := p
  have hmem : (i, item) ∈ done ++ (i, item) :: rest := by simp
  obtain ⟨hpos, hin⟩ := hs.inside _ hmem
  dsimp only at hpos hin
  have hdis : ∀ q ∈ done, ∀ b, ¬ (Spec.Covers q.1 q.2.width b ∧ Spec.Covers i item.width b) := by
    intro q hq
    exact (List.pairwise_append.mp hs.disjoint).2.2 q hq (i, item) (by simp)
  have hposd : ∀ q ∈ done, 0 < q.2.width := fun q hq => (hs.inside q (by simp [hq])).1
  obtain ⟨g', hcl, c1, c2, c3, c4, c6⟩ := laid_claim hl i item.width hin hdis
  have hkey := any_keys_false done i item.width hpos hposd hdis
  have havail : ∀ b, g'.avail b = true ↔ (b < k.bits ∧ ∀ q ∈ done ++ [(i, item)],
      ¬ Spec.Covers q.1 q.2.width b) := by
    intro b
    rw [c6, hl.avail]
    constructor
    · rintro ⟨⟨h1, h2⟩, h3⟩
      refine ⟨h1, fun q hq => ?_⟩
      rcases List.mem_append.mp hq with h' | h'
      · exact h2 q h'
      · rw [List.mem_singleton] at h'; subst h'; exact h3
    · rintro ⟨h1, h2⟩
      exact ⟨⟨h1, fun q hq => h2 q (by simp [hq])⟩, h2 (i, item) (by simp)⟩
  cases item with
  | pad w v =>
    obtain rfl := hs.pads i w v hmem
    simp only [Item.width] at *
    refine ⟨{ g' with raw := (writeField g'.kind g'.raw i w 0).1, byIndex := dset g'.byIndex i (.pad w 0) }, ?_, ?_⟩
    · simp [Group.load, entryOf, Group.pad, hcl]
    · refine ⟨c1, c2, ?_, ?_, havail⟩
      · dsimp only; rw [c3, dset_fresh _ _ _ hkey]
      · dsimp only; rw [c4, fieldsOf_pad]
  | field f =>
    obtain ⟨rfl, hvn⟩ := hs.field i f hmem
    have hne : f.name ≠ "" := by intro h; rw [h, hempty] at hvn; cases hvn
    have hok : fieldOk validName k f.name f.index f.width = true := by
      simp only [fieldOk, Bool.and_eq_true, decide_eq_true_eq]
      simp only [Item.width] at hpos hin
      exact ⟨⟨by omega, by omega⟩, hvn⟩
    have hfresh : f.width ≠ 1 → (fieldsOf done).any (·.1 == f.name) = false :=
      hs.names done f.index f rest rfl
    simp only [Item.width] at *
    have hfinal : Laid k (done ++ [(f.index, .field f)])
        { g' with
          fields := dset g'.fields f.name f, byIndex := dset g'.byIndex f.index (.field f)
          raw := (writeField g'.kind g'.raw f.index f.width (readField raw f.index f.width)).1 } := by
      refine ⟨c1, c2, ?_, ?_, havail⟩
      · dsimp only; rw [c3, dset_fresh _ _ _ hkey]
      · dsimp only; rw [c4, fieldsOf_field]
    by_cases hw1 : f.width = 1
    · refine ⟨_, ?_, hfinal⟩
      obtain ⟨fn, fi, fw, fe, fc⟩ := f
      dsimp only at *
      subst hw1
      simp only [Group.load, entryOf, if_neg hne, if_true, Group.flag, hcl, c1, hok, Group.write]
    · refine ⟨_, ?_, hfinal⟩
      obtain ⟨fn, fi, fw, fe, fc⟩ := f
      dsimp only at *
      simp only [Group.load, entryOf, if_neg hne, if_neg hw1, Group.field, hcl, c1, hok, if_true,
        Group.write, c4, hfresh hw1, Bool.false_eq_true, if_false]

theorem laid_all (validName : String → Bool) (hempty : validName "" = false) (k : IntKind)
    (raw : Int) (rest done : List (Nat × Item))
    (hs : Solid validName k (done ++ rest)) (g : Group) (hl : Laid k done g) :
    ∃ g', g.loadAll validName (rest.map (entryOf raw)) = .ok g' ∧ Laid k (done ++ rest) g' := by
  induction rest generalizing done g with
  | nil => exact ⟨g, rfl, by simpa using hl⟩
  | cons p rest ih =>
    obtain ⟨g1, h1, hl1⟩ := laid_step validName hempty k raw done p rest hs g hl
    obtain ⟨g2, h2, hl2⟩ := ih (done ++ [p]) (by simpa using hs) g1 hl1
    refine ⟨g2, ?_, by simpa using hl2⟩
    simp only [List.map_cons, Group.loadAll, h1, h2]

/-- C15. Whatever the primitive holds (also in padding and in bits no item covers), a group with
these items can be exported and re-created, and the new group has the same layout. -/
theorem C15_layout (validName : String → Bool) (hempty : validName "" = false) (g : Group)
    (hs : Solid validName g.kind g.byIndex) (hf : g.fields = fieldsOf g.byIndex) :
    ∃ g', Group.create validName g.asdict = .ok g' ∧ g'.kind = g.kind ∧ g'.byIndex = g.byIndex
      ∧ g'.fields = g.fields ∧ g'.finalized = g.finalized := by
  have hnew : Laid g.kind [] (Group.new g.kind) :=
    ⟨rfl, rfl, rfl, rfl, fun b => by simp [Group.new]⟩
  obtain ⟨g', h1, hl⟩ := laid_all validName hempty g.kind g.raw g.byIndex [] (by simpa using hs)
    (Group.new g.kind) hnew
  rw [List.nil_append] at hl
  refine ⟨{ g' with finalized := g.finalized }, ?_, hl.kind, hl.byIndex, ?_, rfl⟩
  · unfold Group.create
    have : g.asdict.kind = g.kind := rfl
    rw [asdict_entries, this, h1]
    rfl
  · rw [hf]; exact hl.fields

/-- A three bit field and padding; the primitive holds ones everywhere. -/
example : Solid someName .uint8 [(0, .field ⟨"a", 0, 3, none, true⟩), (4, .pad 2 0)] := by
  refine ⟨?_, ?_, ?_, ?_, ?_⟩
  · decide
  · rw [List.pairwise_cons]
    refine ⟨fun q hq b hb => ?_, by simp⟩
    rw [List.mem_singleton.mp hq] at hb
    have h1 := hb.1.2
    have h2 := hb.2.1
    simp only [Item.width] at h1 h2
    omega
  · intro i f h
    simp only [List.mem_cons, Prod.mk.injEq, Item.field.injEq, reduceCtorEq, and_false, List.not_mem_nil, or_false] at h
    obtain ⟨rfl, rfl⟩ := h
    exact ⟨rfl, by decide⟩
  · intro a i f b h hw
    cases a with
    | nil => rfl
    | cons x xs =>
      cases xs with
      | nil => simp only [List.cons_append, List.nil_append, List.cons.injEq, Prod.mk.injEq, reduceCtorEq, and_false, false_and] at h
      | cons y ys => simp only [List.cons_append, List.cons.injEq] at h; exact absurd h.2.2 (by simp)
  · intro i w v h
    simp only [List.mem_cons, Prod.mk.injEq, reduceCtorEq, and_false, Item.pad.injEq, List.not_mem_nil, or_false, false_or] at h
    exact h.2.2

end Verif.Bits
