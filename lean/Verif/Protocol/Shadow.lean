import Verif.Protocol.CopyFails
/-! C29: a protocol re-created from the groups, the build items and the serializables of another one
behaves as one built by the same steps. Exports and imports. -/
namespace Verif.Protocol

open Verif.Wire Verif.Serial Verif.Registry

/-- Two protocols on the same objects whose tables of bit-fields agree on every name (the groups may
be numbered differently). -/
structure Shadow (w : World) (p q : Proto) : Prop where
  arr : p.arr = q.arr
  order : p.order = q.order
  id : p.id = q.id
  regular : p.regular = q.regular
  enumFields : p.enumFields = q.enumFields
  serials : p.serials = q.serials
  bits : ∀ n, (∃ e, p.findBits w n = .error e ∧ q.findBits w n = .error e)
    ∨ ∃ g1 g2 f, p.findBits w n = .ok (g1, f) ∧ q.findBits w n = .ok (g2, f) ∧ g1.ref = g2.ref ∧ g1.grp.kind = g2.grp.kind
  enums : ∀ n, dget p.enumLookup n = dget q.enumLookup n

theorem findBits_names {w w' : World} (h : w'.names = w.names) (p : Proto) (n : String) : p.findBits w' n = p.findBits w n := by
  unfold Proto.findBits
  rw [h]

theorem Shadow.at {w w' : World} {p q : Proto} (s : Shadow w p q) (h : w'.names = w.names) : Shadow w' p q := by
  refine ⟨s.arr, s.order, s.id, s.regular, s.enumFields, s.serials, fun n => ?_, s.enums⟩
  rw [findBits_names h, findBits_names h]
  exact s.bits n

theorem Shadow.value {w : World} {p q : Proto} (s : Shadow w p q) (n : String) (res : Bool) : p.value w n res = q.value w n res := by
  have hb : p.getBits w n res = q.getBits w n res := by
    unfold Proto.getBits
    rcases s.bits n with ⟨e, h1, h2⟩ | ⟨g1, g2, f, h1, h2, h3, h4⟩
    · rw [h1, h2]
    · rw [h1, h2]
      simp only [h3, s.enums n]
  unfold Proto.value
  rw [s.regular, s.enumFields, hb]

theorem Shadow.getItem {w : World} {p q : Proto} (s : Shadow w p q) (n : String) : p.getItem w n = q.getItem w n := by
  unfold Proto.getItem
  rw [s.serials, s.value]

theorem Shadow.setItem {w : World} {p q : Proto} (env : Env) (s : Shadow w p q) (n : String) (v : PVal) :
    p.setItem env w n v = q.setItem env w n v := by
  have hb : p.setBits env w n v = q.setBits env w n v := by
    unfold Proto.setBits
    have ha : bitsArg env p n v = bitsArg env q n v := by
      unfold bitsArg
      rw [s.enums n]
    rcases s.bits n with ⟨e, h1, h2⟩ | ⟨g1, g2, f, h1, h2, h3, h4⟩
    · rw [h1, h2]
    · rw [h1, h2]
      simp only [h3, h4, ha]
  unfold Proto.setItem
  rw [s.regular, s.enumFields, s.serials, hb]

theorem Shadow.sets {w : World} {p q : Proto} (env : Env) (s : Shadow w p q) (t : List (String × PVal)) :
    p.sets env w t = q.sets env w t := by
  induction t generalizing w with
  | nil => rfl
  | cons x rest ih =>
    have h1 := s.setItem env x.1 x.2
    show p.sets env (p.setItem env w x.1 x.2).1 rest = q.sets env (q.setItem env w x.1 x.2).1 rest
    rw [h1]
    exact ih (s.at (setItem_names env w q x.1 x.2))

/-- The protocol built by the steps that uses the objects of a re-created one. -/
theorem create_shadow (env : Env) (o : ByteOrder) (ops : List BOp) {w' : World} {p' : Proto} {l' : List Nat} {L' : Lay}
    (gs : List BitGroup) (c : Core w' p' L' l') (al : Alike L' (Lay.steps env o ops)) (hg : p'.groups = gs ++ gs)
    (hm : Matches (slots w'.heap l') (Lay.steps env o ops).groups gs)
    (ht : (L'.lookup, L'.enumLookup) = enterGroups env gs.length (groupsOf ops) (enterGroups env 0 (groupsOf ops) ([], [])))
    (hk : ∀ e ∈ (Lay.steps env o ops).groups, (kindsOf (Lay.steps env o ops).shapes)[e.1]? = some (.int e.2.kind))
    (hl : LayOk (Lay.steps env o ops)) :
    ∃ q, Shadow w' p' q ∧ Rep w' q (Lay.steps env o ops) l' := by
  have hlook : ∀ n, dget L'.lookup n = (lastWith n (groupsOf ops)).map (gs.length + ·) := by
    intro n
    have h := congrArg Prod.fst ht
    dsimp only at h
    rw [h, dget_enterGroups, dget_enterGroups]
    cases lastWith n (groupsOf ops) <;> rfl
  let q : Proto := { p' with
    groups := (Lay.steps env o ops).groups.map (fun e => ⟨(slots w'.heap l').getD e.1 0, e.2⟩)
    lookup := (Lay.steps env o ops).lookup
    enumLookup := (Lay.steps env o ops).enumLookup
    build := (Lay.steps env o ops).build }
  have r : Rep w' q (Lay.steps env o ops) l' := by
    refine ⟨⟨c.ok, c.lt, c.chain, by rw [← al.shapes]; exact c.shapes, c.nodup, c.sound, by rw [← al.order]; exact c.order,
      by rw [← al.order]; exact c.onat, ?_, by rw [← al.regular]; exact c.regular, hl.regular_lt,
      by rw [← al.serials]; exact c.serials, hl.serials_lt, by rw [← al.enumFields]; exact c.enumFields, rfl, rfl, rfl, ?_⟩,
      ⟨rfl, hk⟩, hl⟩
    · rw [← al.shapes, ← al.order]; exact c.head
    · intro e he
      have h1 : (dget (Lay.steps env o ops).lookup e.1).isSome = true := by
        rw [← dget_isSome]
        exact List.any_eq_true.mpr ⟨e, he, by simp⟩
      rw [steps_lookup] at h1
      obtain ⟨j, hj⟩ := Option.isSome_iff_exists.mp h1
      have h2 := hlook e.1
      rw [hj] at h2
      exact c.names (e.1, gs.length + j) (dget_mem h2)
  refine ⟨q, ⟨rfl, rfl, rfl, rfl, rfl, rfl, fun n => ?_, fun n => ?_⟩, r⟩
  · obtain ⟨hb, -, -⟩ := bits_agree env o ops r c gs hg hm ht
    rcases hb n with ⟨e, h1, h2⟩ | ⟨k, g1, g2, f, -, h1, h2, h3⟩
    · exact .inl ⟨e, h2, h1⟩
    · exact .inr ⟨_, _, f, h2, h1, rfl, h3.symm⟩
  · exact ((bits_agree env o ops r c gs hg hm ht).2.1 n).symm

end Verif.Protocol
