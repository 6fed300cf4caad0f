import Verif.Serial.Pack
/-! C20 (arrays serialise exactly) and C21 (positions and fragments). -/
namespace Verif.Serial

open Verif.Wire

/-! ### Frames -/

@[simp] theorem setPrim_node (h : Heap) (r : Nat) (v : Val) : (h.setPrim r v).node = h.node := rfl
@[simp] theorem setPrim_np (h : Heap) (r : Nat) (v : Val) : (h.setPrim r v).np = h.np := rfl
@[simp] theorem setPrim_nn (h : Heap) (r : Nat) (v : Val) : (h.setPrim r v).nn = h.nn := rfl

theorem setPrim_kind (h : Heap) (r : Nat) (v : Val) (q : Nat) :
    ((h.setPrim r v).prim q).kind = (h.prim q).kind := by
  simp only [Heap.setPrim]; split
  · rename_i e; subst e; rfl
  · rfl

theorem setPrim_ne (h : Heap) (r : Nat) (v : Val) (q : Nat) (hq : q ≠ r) :
    (h.setPrim r v).prim q = h.prim q := by simp [Heap.setPrim, hq]

theorem setAll_frame (rs : List Nat) (vs : List Val) (h : Heap) :
    (h.setAll rs vs).node = h.node ∧ (h.setAll rs vs).np = h.np ∧ (h.setAll rs vs).nn = h.nn
    ∧ (∀ q, ((h.setAll rs vs).prim q).kind = (h.prim q).kind)
    ∧ (∀ q, q ∉ rs → (h.setAll rs vs).prim q = h.prim q) := by
  induction rs generalizing vs h with
  | nil => exact ⟨rfl, rfl, rfl, fun _ => rfl, fun _ _ => rfl⟩
  | cons r rs ih =>
    cases vs with
    | nil => exact ⟨rfl, rfl, rfl, fun _ => rfl, fun _ _ => rfl⟩
    | cons v vs =>
      obtain ⟨h1, h2, h3, h4, h5⟩ := ih vs (h.setPrim r v)
      simp only [Heap.setAll]
      refine ⟨h1, h2, h3, fun q => by rw [h4, setPrim_kind], fun q hq => ?_⟩
      rw [h5 q (fun m => hq (List.mem_cons_of_mem _ m)), setPrim_ne]
      exact fun e => hq (e ▸ List.mem_cons_self)

theorem setAll_typed (rs : List Nat) (vs : List Val) (h : Heap) (ht : Typed h)
    (hv : List.Forall₂ (fun r v => Spec.HasKind (h.prim r).kind v) rs vs) : Typed (h.setAll rs vs) := by
  induction rs generalizing vs h with
  | nil => exact ht
  | cons r rs ih =>
    cases hv with
    | cons h1 h2 =>
      rename_i v vs
      simp only [Heap.setAll]
      apply ih
      · intro q
        simp only [Heap.setPrim]
        split
        · rw [storeVal_of_hasKind h1]; exact h1
        · exact ht q
      · exact h2.imp (fun r v hv => by rw [setPrim_kind]; exact hv)

/-- Assigning distinct primitives gives each its value. -/
theorem setAll_vals (rs : List Nat) (vs : List Val) (h : Heap) (hn : rs.Nodup)
    (hv : List.Forall₂ (fun r v => Spec.HasKind (h.prim r).kind v) rs vs) :
    rs.map (fun r => ((h.setAll rs vs).prim r).val) = vs := by
  induction rs generalizing vs h with
  | nil => cases hv; rfl
  | cons r rs ih =>
    cases hv with
    | cons h1 h2 =>
      rename_i v vs
      have hn' := List.nodup_cons.mp hn
      simp only [Heap.setAll, List.map_cons]
      rw [ih vs (h.setPrim r v) hn'.2 (h2.imp (fun r v hv => by rw [setPrim_kind]; exact hv))]
      rw [(setAll_frame rs vs (h.setPrim r v)).2.2.2.2 r hn'.1]
      simp [Heap.setPrim, storeVal_of_hasKind h1]

/-- The elements of an array. -/
def cells (h : Heap) (a : Arr) : List (Kind × Val) := a.prims.map (fun r => ((h.prim r).kind, (h.prim r).val))

theorem zip_cells (h : Heap) (a : Arr) (ha : ArrOk h a) :
    a.fmt.zip (a.prims.map (fun r => (h.prim r).val)) = cells h a := by
  rw [ha.fmt, cells]
  generalize a.prims = l
  induction l with
  | nil => rfl
  | cons r rest ih => simp [ih]

theorem fmt_cells (h : Heap) (a : Arr) (ha : ArrOk h a) : (cells h a).map Prod.fst = a.fmt := by
  rw [ha.fmt, cells, List.map_map]; rfl

theorem cells_typed (h : Heap) (ht : Typed h) (a : Arr) : ∀ c ∈ cells h a, Spec.HasKind c.1 c.2 := by
  intro c hc
  obtain ⟨r, -, rfl⟩ := List.mem_map.mp hc
  exact ht r

theorem bytes_array (h : Heap) (i : Nat) (a : Arr) (ha : ArrOk h a) (hi : (h.node i).body = .array a) :
    h.bytes i = pack a.order 0 (cells h a) := by
  simp only [Heap.bytes, hi, zip_cells h a ha]
  rw [if_pos (by rw [ha.fmt, List.length_map])]

/-- C20. An array's bytes are the concatenation of its elements' encodings, in order, and have
exactly the reported size (byte orders other than native). -/
theorem C20_bytes (h : Heap) (hok : HeapOk h) (i : Nat) (a : Arr) (hi : (h.node i).body = .array a)
    (ho : a.order ≠ .native) :
    ∃ bss, List.Forall₂ (fun r b => encode (h.prim r).kind a.order (h.prim r).val = .ok b) a.prims bss
      ∧ h.bytes i = .ok bss.flatten ∧ bss.flatten.length = a.size := by
  have ha := hok.arrays i a hi
  obtain ⟨bss, h1, h2⟩ := pack_concat a.order ho (cells h a) 0 (cells_typed h hok.typed a)
  refine ⟨bss, ?_, by rw [bytes_array h i a ha hi, h2], ?_⟩
  · unfold cells at h1
    rw [List.forall₂_map_left_iff] at h1
    exact h1
  · rw [pack_length a.order ho _ _ _ h2, ha.size, ha.fmt, cells, List.map_map, List.map_map]
    rfl

theorem forall2_kinds (h : Heap) (a : Arr) (ha : ArrOk h a) (vs : List Val)
    (hv : List.Forall₂ Spec.HasKind a.fmt vs) :
    List.Forall₂ (fun r v => Spec.HasKind (h.prim r).kind v) a.prims vs := by
  rw [ha.fmt, List.forall₂_map_left_iff] at hv
  exact hv

/-- C20. Updating an array of the same layout with an array's bytes restores every element
value, whatever the byte order; nothing outside the updated array changes. -/
theorem C20_update_restores (h : Heap) (hok : HeapOk h) (i j : Nat) (a b : Arr) (bs : Bytes)
    (hi : (h.node i).body = .array a) (hj : (h.node j).body = .array b)
    (hfmt : a.fmt = b.fmt) (hord : a.order = b.order) (hn : b.prims.Nodup)
    (hbs : h.bytes i = .ok bs) :
    (h.update j bs).2 = .ok b.size
    ∧ b.prims.map (fun r => ((h.update j bs).1.prim r).val) = a.prims.map (fun r => (h.prim r).val)
    ∧ (∀ q, q ∉ b.prims → (h.update j bs).1.prim q = h.prim q)
    ∧ (h.update j bs).1.node = h.node := by
  have ha := hok.arrays i a hi
  have hb := hok.arrays j b hj
  obtain ⟨bs', h1, h2, h3⟩ := pack_unpack a.order (cells h a) 0 (cells_typed h hok.typed a)
  rw [bytes_array h i a ha hi, h1] at hbs
  cases hbs
  rw [fmt_cells h a ha] at h2 h3
  have hu : unpack b.order b.fmt bs = .ok ((cells h a).map Prod.snd) := by
    rw [← hord, ← hfmt]
    have := h3 []
    rw [List.append_nil] at this
    rw [unpack, if_pos (by omega), this]
  have hv := forall2_kinds h b hb _ (unpackFrom_kinds b.order b.fmt 0 bs _ (by
    unfold unpack at hu; split at hu
    · exact hu
    · cases hu))
  simp only [Heap.update, hj, hu]
  obtain ⟨f1, -, -, -, f5⟩ := setAll_frame b.prims ((cells h a).map Prod.snd) h
  refine ⟨trivial, ?_, f5, f1⟩
  rw [setAll_vals b.prims _ h hn hv, cells, List.map_map]
  rfl

/-- C20. Updating with data of any other length raises and changes nothing; any data of the
right length is accepted. -/
theorem C20_update_length (h : Heap) (hok : HeapOk h) (i : Nat) (a : Arr)
    (hi : (h.node i).body = .array a) (ho : a.order ≠ .native) (data : Bytes) :
    (data.length ≠ a.size → h.update i data = (h, .error .struct))
    ∧ (data.length = a.size → (h.update i data).2 = .ok a.size) := by
  have ha := hok.arrays i a hi
  have hc : calcsize a.order 0 a.fmt = a.size := by rw [calcsize_sum a.order ho, ha.size, Nat.zero_add]
  constructor
  · intro hl
    simp only [Heap.update, hi, unpack, hc, if_neg hl]
  · intro hl
    obtain ⟨vs, hvs⟩ := unpackFrom_ok a.order a.fmt 0 data (by rw [hc, hl, Nat.zero_add])
    simp only [Heap.update, hi, unpack, hc, if_pos hl, hvs]

/-- A one-byte and a two-byte element in native order: the array reports three bytes but
produces four, and refuses three. -/
theorem C20_native_fails :
    let h1 := (Heap.empty.newPrim (.int .uint8) (.int 1)).1
    let h2 := (h1.newPrim (.int .uint16) (.int 2)).1
    let h := (h2.newArray .native [0, 1]).1
    h.bytes 0 = .ok [1, 0, 2, 0] ∧ (h.node 0).body.size = 3
    ∧ (h.update 0 [1, 2, 0]).2 = .error .struct := by
  decide

/-- A heap with an array of a byte and a word in network order, and a second one of the same
layout. -/
def sampleHeap : Heap :=
  let h := (Heap.empty.newPrim (.int .uint8) (.int 1)).1
  let h := (h.newPrim (.int .uint16) (.int 0x203)).1
  let h := (h.newArray .network [0, 1]).1
  let h := (h.newPrim (.int .uint8) (.int 0)).1
  let h := (h.newPrim (.int .uint16) (.int 0)).1
  (h.newArray .network [2, 3]).1

example : sampleHeap.bytes 0 = .ok [1, 2, 3] ∧ ((sampleHeap.update 1 [1, 2, 3]).1.prim 3).val = .int 0x203
    ∧ (sampleHeap.update 1 [1, 2]).2 = .error .struct := by decide

/-! ### C21 -/

theorem sum_take_le (l : List Nat) (i j : Nat) (h : i ≤ j) : (l.take i).sum ≤ (l.take j).sum := by
  induction l generalizing i j with
  | nil => simp
  | cons x rest ih =>
    cases i with
    | zero => simp
    | succ i =>
      cases j with
      | zero => omega
      | succ j => have := ih i j (by omega); simp only [List.take_succ_cons, List.sum_cons]; omega

/-- C21. A reported byte position is the total size of the elements before the index, and the
index reported for it is that index again; and conversely. -/
theorem C21_positions (h : Heap) (hok : HeapOk h) (i : Nat) (a : Arr) (hi : (h.node i).body = .array a)
    (idx b : Nat) :
    (a.byteAtIndex idx = .ok b →
      b = (((a.prims.take idx).map (fun r => (h.prim r).kind.size)).sum)
      ∧ idx ≤ a.prims.length ∧ a.indexAtByte b = .ok idx)
    ∧ (a.indexAtByte b = .ok idx → a.byteAtIndex idx = .ok b)
    ∧ a.byteAtIndex 0 = .ok 0 ∧ a.byteAtIndex a.prims.length = .ok a.size := by
  have ha := hok.arrays i a hi
  have e1 : ∀ idx b, a.byteAtIndex idx = .ok b ↔ dget a.toByte idx = some b := by
    intro idx b; unfold Arr.byteAtIndex; cases dget a.toByte idx <;> simp
  have e2 : ∀ idx b, a.indexAtByte b = .ok idx ↔ dget a.toIndex b = some idx := by
    intro idx b; unfold Arr.indexAtByte; cases dget a.toIndex b <;> simp
  simp only [e1, e2]
  refine ⟨fun hb => ?_, fun hb => (ha.toIndex b idx).mp hb, ha.first, ha.last⟩
  obtain ⟨h1, h2⟩ := ha.toByte idx b hb
  refine ⟨?_, h1, (ha.toIndex b idx).mpr hb⟩
  rw [h2, ha.fmt, ← List.map_take, List.map_map]; rfl

/-- `f` is a fragment of the array `i` over the elements from `s` to `e`. -/
def IsFrag (h : Heap) (i f s e : Nat) : Prop :=
  ∃ a b, (h.node i).body = .array a ∧ (h.node f).body = .array b ∧ b.order = a.order
    ∧ b.prims = (a.prims.take e).drop s ∧ s ≤ e ∧ e ≤ a.prims.length

/-- C21. A fragment's bytes are exactly the slice of the whole array's bytes that its elements
occupy. -/
theorem C21_fragment_bytes (h : Heap) (hok : HeapOk h) (i f s e : Nat) (hf : IsFrag h i f s e) (a : Arr)
    (hi : (h.node i).body = .array a) (ho : a.order ≠ .native) :
    ∃ bs, h.bytes i = .ok bs ∧ h.bytes f = .ok ((bs.take
      ((a.prims.take e).map (fun r => (h.prim r).kind.size)).sum).drop
      ((a.prims.take s).map (fun r => (h.prim r).kind.size)).sum) := by
  obtain ⟨a', b, hi', hb, hord, hp, hse, hel⟩ := hf
  rw [hi] at hi'
  cases hi'
  have ha := hok.arrays i a hi
  have hbo := hok.arrays f b hb
  obtain ⟨bss, -, h2⟩ := pack_concat a.order ho (cells h a) 0 (cells_typed h hok.typed a)
  have hcells : cells h a = (cells h a).take s ++ (cells h b ++ (cells h a).drop e) := by
    have : cells h b = ((cells h a).take e).drop s := by
      simp only [cells, hp, List.map_drop, List.map_take]
    rw [this, ← List.append_assoc]
    have hts : (cells h a).take s = ((cells h a).take e).take s := by
      rw [List.take_take, Nat.min_eq_left hse]
    rw [hts, List.take_append_drop, List.take_append_drop]
  have hp1 := h2
  rw [hcells] at hp1
  obtain ⟨b1, b2, q1, q2, q3⟩ := pack_append a.order ho _ _ _ hp1
  obtain ⟨b3, b4, q4, q5, q6⟩ := pack_append a.order ho _ _ _ q2
  have l1 : b1.length = ((a.prims.take s).map (fun r => (h.prim r).kind.size)).sum := by
    rw [pack_length a.order ho _ _ _ q1]
    simp only [cells, ← List.map_take, List.map_map]; rfl
  have l3 : b1.length + b3.length = ((a.prims.take e).map (fun r => (h.prim r).kind.size)).sum := by
    rw [l1, pack_length a.order ho _ _ _ q4]
    have : a.prims.take e = a.prims.take s ++ (a.prims.take e).drop s := by
      have : a.prims.take s = (a.prims.take e).take s := by rw [List.take_take, Nat.min_eq_left hse]
      rw [this, List.take_append_drop]
    rw [this, List.map_append, List.sum_append]
    congr 1
    simp only [cells, hp, List.map_map]; rfl
  refine ⟨bss.flatten, by rw [bytes_array h i a ha hi, h2], ?_⟩
  rw [bytes_array h f b hbo hb, hord, q4, ← l1, ← l3, q3, q6]
  congr 1
  rw [← List.append_assoc, List.take_append_of_le_length (by simp),
    List.take_of_length_le (by simp), List.drop_left]

/-- C21. Updating a fragment changes only its own elements; the rest of the array keeps its
values (elements of the array distinct), and the array's structure stays. -/
theorem C21_fragment_update (h : Heap) (i f s e : Nat) (hf : IsFrag h i f s e)
    (a : Arr) (hi : (h.node i).body = .array a) (hn : a.prims.Nodup) (data : Bytes) :
    (h.update f data).1.node = h.node
    ∧ (∀ q, q ∉ (a.prims.take e).drop s → (h.update f data).1.prim q = h.prim q)
    ∧ (a.prims.take s).map (fun r => (h.update f data).1.prim r) = (a.prims.take s).map (fun r => h.prim r)
    ∧ (a.prims.drop e).map (fun r => (h.update f data).1.prim r) = (a.prims.drop e).map (fun r => h.prim r)
    ∧ IsFrag (h.update f data).1 i f s e := by
  obtain ⟨a', b, hi', hb, hord, hp, hse, hel⟩ := id hf
  rw [hi] at hi'
  cases hi'
  have hupd : (h.update f data).1.node = h.node
      ∧ ∀ q, q ∉ (a.prims.take e).drop s → (h.update f data).1.prim q = h.prim q := by
    simp only [Heap.update, hb]
    cases unpack b.order b.fmt data with
    | error e => exact ⟨rfl, fun _ _ => rfl⟩
    | ok vs =>
      obtain ⟨f1, -, -, -, f5⟩ := setAll_frame b.prims vs h
      rw [hp] at f5
      rw [hp] at f1
      rw [hp]
      exact ⟨f1, f5⟩
  have hsplit : a.prims = a.prims.take s ++ ((a.prims.take e).drop s ++ a.prims.drop e) := by
    have : a.prims.take s = (a.prims.take e).take s := by rw [List.take_take, Nat.min_eq_left hse]
    rw [this, ← List.append_assoc, List.take_append_drop, List.take_append_drop]
  rw [hsplit] at hn
  have hn1 := List.nodup_append.mp hn
  have hn2 := List.nodup_append.mp hn1.2.1
  refine ⟨hupd.1, hupd.2, ?_, ?_, ?_⟩
  · apply List.map_congr_left
    intro q hq
    exact hupd.2 q (fun hm => hn1.2.2 q hq q (List.mem_append_left _ hm) rfl)
  · apply List.map_congr_left
    intro q hq
    exact hupd.2 q (fun hm => hn2.2.2 q hm q hq rfl)
  · exact ⟨a, b, by rw [hupd.1]; exact hi, by rw [hupd.1]; exact hb, hord, hp, hse, hel⟩

end Verif.Serial
