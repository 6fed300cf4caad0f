import Verif.Protocol.Build
import Mathlib.Data.List.Forall2
/-! C28: instances of a protocol. -/
namespace Verif.Protocol

open Verif.Wire Verif.Serial Verif.Registry

/-- The values in a content. -/
def viewCells : View → List (Kind × Val)
  | .array _ cs => cs
  | _ => []

/-- The layout of a content. -/
def viewShape : View → Shape
  | .array o cs => .array o (cs.map (·.1))
  | .fixed d => .fixed d.length
  | .prefixed k o _ => .prefixed k o

theorem slots_view (h : Heap) (l : List Nat) :
    (slots h l).map (fun q => ((h.prim q).kind, (h.prim q).val)) = (l.map (view h)).flatMap viewCells := by
  induction l with
  | nil => rfl
  | cons x xs ih =>
    simp only [slots, List.flatMap_cons, List.map_append, List.map_cons] at ih ⊢
    rw [ih]
    congr 1
    unfold primsOf view
    cases (h.node x).body <;> rfl

theorem shape_view (h : Heap) (hok : HeapOk h) (i : Nat) : shape h i = viewShape (view h i) := by
  unfold shape view
  cases hb : (h.node i).body with
  | array a =>
    simp only [viewShape, (hok.arrays i a hb).fmt, cells, List.map_map]
    rfl
  | fixed d => rfl
  | prefixed p => rfl

theorem showNode_view (h : Heap) (i : Nat) : showNode h i =
    match view h i with
    | .array _ cs => .ok (.cells cs)
    | .fixed d => (utf8Dec d).map (fun s => .str (String.ofList s))
    | .prefixed _ _ d => (utf8Dec d).map (fun s => .str (String.ofList s)) := by
  unfold showNode view
  cases (h.node i).body <;> rfl

theorem dget_map {α β : Type} (d : List (String × α)) (f : α → β) (k : String) :
    dget (d.map (fun e => (e.1, f e.2))) k = (dget d k).map f := by
  induction d with
  | nil => rfl
  | cons x xs ih =>
    rw [List.map_cons, dget_cons, dget_cons, ih]
    split <;> rfl

theorem getD_map {α β : Type} (l : List α) (f : α → β) (k : Nat) (d : α) (e : β) (hk : k < l.length) :
    f (l.getD k d) = (l.map f).getD k e := by
  rw [List.getD_eq_getElem _ _ hk, List.getD_eq_getElem _ _ (by simpa using hk)]
  simp

/-- Look-ups in an instance. -/
theorem Rep.dget_regular {w : World} {p : Proto} {L : Lay} {l : List Nat} (r : Rep w p L l) (n : String) :
    dget p.regular n = (dget L.regular n).map (fun k => (slots w.heap l).getD k 0) := by
  rw [r.core.regular]; exact dget_map L.regular (fun k => (slots w.heap l).getD k 0) n

theorem Rep.dget_serials {w : World} {p : Proto} {L : Lay} {l : List Nat} (r : Rep w p L l) (n : String) :
    dget p.serials n = (dget L.serials n).map (fun k => l.getD k 0) := by
  rw [r.core.serials]; exact dget_map L.serials (fun k => l.getD k 0) n

/-- Finding a bit field in a layout. -/
def Lay.findBits (L : Lay) (name : String) : Except PyErr (Nat × Bits.Group × Bits.Field) :=
  match dget L.lookup name with
  | none => .error .key
  | some idx =>
    match L.groups[idx]? with
    | none => .error .index
    | some g =>
      match dget g.2.fields name with
      | none => .error .key
      | some f => .ok (g.1, g.2, f)

theorem Rep.findBits {w : World} {p : Proto} {L : Lay} {l : List Nat} (r : Rep w p L l) (n : String) :
    p.findBits w n = (L.findBits n).map (fun t => (⟨(slots w.heap l).getD t.1 0, t.2.1⟩, t.2.2)) := by
  unfold Proto.findBits Lay.findBits
  rw [r.core.lookup]
  cases hl : dget L.lookup n with
  | none => simp [Except.map]
  | some idx =>
    have hm : n ∈ w.names := r.core.names _ (dget_mem hl)
    rw [if_pos hm, r.groups.groups]
    dsimp only
    rw [List.getElem?_map]
    cases L.groups[idx]? with
    | none => rfl
    | some g =>
      simp only [Option.map_some]
      cases dget g.2.fields n <;> rfl

theorem Lay.findBits_mem {L : Lay} {n : String} {t : Nat × Bits.Group × Bits.Field} (h : L.findBits n = .ok t) :
    ∃ idx : Nat, L.groups[idx]? = some (t.1, t.2.1) ∧ dget t.2.1.fields n = some t.2.2 := by
  unfold Lay.findBits at h
  cases hl : dget L.lookup n with
  | none => rw [hl] at h; cases h
  | some idx =>
    rw [hl] at h
    dsimp only at h
    cases hg : L.groups[idx]? with
    | none => rw [hg] at h; cases h
    | some g =>
      rw [hg] at h
      dsimp only at h
      cases hf : dget g.2.fields n with
      | none => rw [hf] at h; cases h
      | some f =>
        rw [hf] at h
        cases h
        exact ⟨idx, hg, hf⟩

/-- What reading a name gives is determined by the layout and the contents. -/
theorem same_values {w1 w2 : World} {p1 p2 : Proto} {L : Lay} {l1 l2 : List Nat} (r1 : Rep w1 p1 L l1)
    (r2 : Rep w2 p2 L l2) (hv : l1.map (view w1.heap) = l2.map (view w2.heap)) (name : String) :
    p1.getItem w1 name = p2.getItem w2 name ∧ ∀ res, p1.value w1 name res = p2.value w2 name res := by
  have hcell : ∀ k, k < L.count → (w1.heap.prim ((slots w1.heap l1).getD k 0)).val
      = (w2.heap.prim ((slots w2.heap l2).getD k 0)).val := by
    intro k hk
    have h1 := getD_map (slots w1.heap l1) (fun q => ((w1.heap.prim q).kind, (w1.heap.prim q).val)) k 0 (.bool, .int 0)
      (by rw [r1.core.count]; exact hk)
    have h2 := getD_map (slots w2.heap l2) (fun q => ((w2.heap.prim q).kind, (w2.heap.prim q).val)) k 0 (.bool, .int 0)
      (by rw [r2.core.count]; exact hk)
    rw [slots_view] at h1 h2
    rw [hv, ← h2] at h1
    exact (Prod.mk.inj h1).2
  have hbits : ∀ res, p1.getBits w1 name res = p2.getBits w2 name res := by
    intro res
    unfold Proto.getBits
    rw [r1.findBits, r2.findBits]
    cases hf : L.findBits name with
    | error e => rfl
    | ok t =>
      obtain ⟨idx, hg, -⟩ := Lay.findBits_mem hf
      have := hcell t.1 (r1.lay.groups_lt _ (List.mem_of_getElem? hg))
      simp only [Except.map, this, r1.core.enumLookup, r2.core.enumLookup]
  have hval : ∀ res, p1.value w1 name res = p2.value w2 name res := by
    intro res
    unfold Proto.value
    rw [r1.dget_regular, r2.dget_regular]
    cases hd : dget L.regular name with
    | none => exact hbits res
    | some k =>
      simp only [Option.map_some, hcell k (r1.lay.regular_lt _ (dget_mem hd)), r1.core.enumFields, r2.core.enumFields]
  refine ⟨?_, hval⟩
  unfold Proto.getItem
  rw [r1.dget_serials, r2.dget_serials]
  cases hd : dget L.serials name with
  | none => exact hval true
  | some k =>
    simp only [Option.map_some, showNode_view]
    have hk := r1.lay.serials_lt _ (dget_mem hd)
    have h1 := getD_map l1 (view w1.heap) k 0 (.fixed []) (by rw [r1.core.chain_len]; exact hk)
    have h2 := getD_map l2 (view w2.heap) k 0 (.fixed []) (by rw [r2.core.chain_len]; exact hk)
    rw [h1, h2, hv]

theorem sameShape_of (h1 h2 : Heap) (ok1 : HeapOk h1) (i j : Nat) (hs : shape h1 i = shape h2 j)
    (hsd : Sound h2 j) : SameShape h2 j (view h1 i) := by
  rw [shape_view h1 ok1] at hs
  unfold SameShape
  unfold shape at hs
  unfold Sound at hsd
  cases hb : (h2.node j).body with
  | array a =>
    rw [hb] at hs
    cases hv : view h1 i <;> rw [hv] at hs <;> simp only [viewShape, Shape.array.injEq] at hs ⊢ <;> try cases hs
    rename_i h3 h4
    exact ⟨h3.symm, h4.symm⟩
  | fixed d =>
    rw [hb] at hs
    cases hv : view h1 i <;> rw [hv] at hs <;> simp only [viewShape, Shape.fixed.injEq] at hs ⊢ <;> try cases hs
    exact hs.symm
  | prefixed p =>
    rw [hb] at hs hsd
    cases hv : view h1 i <;> rw [hv] at hs <;> simp only [viewShape, Shape.prefixed.injEq] at hs ⊢ <;> try cases hs
    rename_i h3 h4
    exact ⟨h3.symm, h4.symm, hsd.unsigned⟩

theorem forall2_shapes (h1 h2 : Heap) (ok1 : HeapOk h1) (l1 l2 : List Nat)
    (hs : l1.map (shape h1) = l2.map (shape h2)) (hsd : ∀ j ∈ l2, Sound h2 j) :
    List.Forall₂ (fun i j => SameShape h2 j (view h1 i)) l1 l2 := by
  induction l1 generalizing l2 with
  | nil => cases l2 with
    | nil => exact .nil
    | cons y ys => cases hs
  | cons x xs ih => cases l2 with
    | nil => cases hs
    | cons y ys =>
      rw [List.map_cons, List.map_cons, List.cons.injEq] at hs
      exact .cons (sameShape_of h1 h2 ok1 x y hs.1 (hsd y List.mem_cons_self))
        (ih ys hs.2 (fun j hj => hsd j (List.mem_cons_of_mem _ hj)))

/-- Changes of values keep the layout. -/
theorem Rep.change {w : World} {p : Proto} {L : Lay} {l : List Nat} (r : Rep w p L l) (h' : Heap)
    (hg : Good w.heap h') (hnext : ∀ k ∈ l, (h'.node k).next = (w.heap.node k).next)
    (hprims : ∀ k ∈ l, primsOf h' k = primsOf w.heap k) (hshape : ∀ k ∈ l, shape h' k = shape w.heap k)
    (hsound : ∀ k ∈ l, Sound h' k) : Rep { w with heap := h' } p L l := by
  obtain ⟨c, g, ok⟩ := r
  obtain ⟨w1, w2, w3⟩ := (chain_iff _ _ _).mp c.chain
  have hs : slots h' l = slots w.heap l := flatMap_congr' l hprims
  refine ⟨⟨hg.1, Nat.lt_of_lt_of_le c.lt hg.2.nn, ?_, ?_, ?_, hsound, c.order, c.onat, c.head, ?_, c.regular_lt, c.serials,
    c.serials_lt, c.enumFields, c.lookup, c.enumLookup, c.build, c.names⟩, ⟨?_, g.kinds⟩, ok⟩
  · exact (chain_iff _ _ _).mpr ⟨w1, chained_frame _ _ l hnext w2, Nat.le_trans w3 hg.2.nn⟩
  · rw [← c.shapes]
    exact List.map_congr_left hshape
  · dsimp only; rw [hs]; exact c.nodup
  · dsimp only; rw [hs]; exact c.regular
  · dsimp only; rw [hs]; exact g.groups

/-- Writing one instance and reading it into another one of the same layout. -/
theorem rep_round_trip {w1 w2 : World} {p1 p2 : Proto} {L : Lay} {l1 l2 : List Nat} (r1 : Rep w1 p1 L l1)
    (r2 : Rep w2 p2 L l2) :
    ∃ bs, w1.heap.toStream p1.arr = .ok (bs, bs.length) ∧ w1.heap.length p1.arr = .ok bs.length
      ∧ ∀ rest, ∃ h', w2.heap.fromStream p2.arr (bs ++ rest) = (h', .ok (bs.length, rest))
        ∧ Rep { w2 with heap := h' } p2 L l2
        ∧ ∀ name, p2.getItem { w2 with heap := h' } name = p1.getItem w1 name
          ∧ ∀ res, p2.value { w2 with heap := h' } name res = p1.value w1 name res := by
  have c1 := r1.core
  have c2 := r2.core
  have hsh := forall2_shapes w1.heap w2.heap c1.ok l1 l2 (c1.shapes.trans c2.shapes.symm) c2.sound
  have hn2 := chained_nodup w2.heap l2 ((chain_iff _ _ _).mp c2.chain).2.1
  obtain ⟨bs, b1, b2, b3⟩ := readAll_spec w1.heap c1.ok l1 l2 w2.heap c2.ok c1.sound hsh hn2 c2.nodup
  refine ⟨bs, by simp only [Heap.toStream, c1.chain, b1], by simp [Heap.length, c1.chain, Except.map, b2], fun rest => ?_⟩
  obtain ⟨h', s1, s2, s3, s4, s5, s6, s7, s8⟩ := b3 rest
  have hshape : ∀ k ∈ l2, shape h' k = shape w2.heap k := by
    have e1 : l2.map (shape h') = l2.map (shape w2.heap) := by
      rw [c2.shapes, ← c1.shapes]
      have h1 : l2.map (shape h') = (l2.map (view h')).map viewShape := by
        rw [List.map_map]
        exact List.map_congr_left (fun k _ => shape_view h' s8.1 k)
      have h2 : l1.map (shape w1.heap) = (l1.map (view w1.heap)).map viewShape := by
        rw [List.map_map]
        exact List.map_congr_left (fun k _ => shape_view w1.heap c1.ok k)
      rw [h1, h2, s2]
    exact List.map_inj_left.mp e1
  have r3 := r2.change h' s8 (fun k _ => s7 k) (fun k _ => s6 k) hshape s3
  refine ⟨h', by simp only [Heap.fromStream, c2.chain, s1], r3, fun name => ?_⟩
  have := same_values r3 r1 s2 name
  exact this

end Verif.Protocol
