import Verif.Protocol.Copy
/-! C29: a copy is a twin of the protocol it was made from. -/
namespace Verif.Protocol

open Verif.Wire Verif.Serial Verif.Registry

/-! ### Serializables keep the shape they were added with -/

/-- No field and no bit-fields are added directly behind an array serializable (they would become
elements of that array, see `C28_array_shows_field_fails`). -/
def NoGrow (ops : List BOp) : Prop :=
  ∀ a n o ks op b, ops = a ++ .serial n (.array o ks) :: op :: b → ∃ m s, op = .serial m s

structure SerInv (L : Lay) (ops : List BOp) : Prop where
  ne : L.shapes ≠ []
  shapes : L.serials.map (fun e => (e.1, L.shapes[e.2]?)) = (serialsOf ops).map (fun e => (e.1, some e.2))
  last : ∀ e ∈ L.serials, e.2 + 1 = L.shapes.length → (∃ o f, L.shapes[e.2]? = some (.array o f)) →
    ∃ a n o ks, ops = a ++ [.serial n (.array o ks)]
  lt : ∀ e ∈ L.serials, e.2 < L.shapes.length
  chunks : ∀ j s, L.shapes[j]? = some s → (∀ o f, s ≠ .array o f) → ∃ n, (n, j) ∈ L.serials

theorem serialsOf_append (a b : List BOp) : serialsOf (a ++ b) = serialsOf a ++ serialsOf b := by
  induction a with
  | nil => rfl
  | cons x xs ih => cases x <;> simp [serialsOf, ih]

theorem addShape_get (o : ByteOrder) (ks : List Kind) (ss : List Shape) (hne : ss ≠ []) :
    ∃ f x, ss = f ++ [x] ∧ ((∃ o' fmt, x = .array o' fmt ∧ addShape o ks ss = f ++ [.array o' (fmt ++ ks)])
      ∨ (∀ o' fmt, x ≠ .array o' fmt) ∧ addShape o ks ss = f ++ [x, .array o ks]) := by
  rcases List.eq_nil_or_concat ss with rfl | ⟨f, x, rfl⟩
  · exact absurd rfl hne
  · rw [List.concat_eq_append, addShape_append]
    refine ⟨f, x, rfl, ?_⟩
    cases x with
    | array o' fmt => exact .inl ⟨o', fmt, rfl, rfl⟩
    | fixed n => exact .inr ⟨fun _ _ h => (by cases h), rfl⟩
    | prefixed k o' => exact .inr ⟨fun _ _ h => (by cases h), rfl⟩

theorem SerInv.grow {L L' : Lay} {pre : List BOp} (s : SerInv L pre) (op : BOp) (hop : ∀ m sp, op ≠ .serial m sp)
    (hng : NoGrow (pre ++ [op])) (o : ByteOrder) (ks : List Kind) (h1 : L'.shapes = addShape o ks L.shapes)
    (h2 : L'.serials = L.serials) : SerInv L' (pre ++ [op]) := by
  obtain ⟨f, x, hs, hx⟩ := addShape_get o ks L.shapes s.ne
  have hser : serialsOf (pre ++ [op]) = serialsOf pre := by
    rw [serialsOf_append]
    cases op with
    | serial m sp => exact absurd rfl (hop m sp)
    | field _ _ _ _ => simp [serialsOf]
    | bits _ => simp [serialsOf]
  have hlast : ∀ e ∈ L.serials, ∀ o' fmt, x = .array o' fmt → e.2 < f.length := by
    intro e he o' fmt hxa
    have hlt := s.lt e he
    rw [hs, List.length_append, List.length_singleton] at hlt
    by_contra hc
    have heq : e.2 = f.length := by omega
    obtain ⟨a, n, o2, ks2, hpre⟩ := s.last e he (by rw [hs, List.length_append, List.length_singleton, heq])
      ⟨o', fmt, by rw [hs, heq, hxa]; simp⟩
    obtain ⟨m, sp, h⟩ := hng a n o2 ks2 op [] (by rw [hpre]; simp)
    exact hop m sp h
  have hget : ∀ e ∈ L.serials, L'.shapes[e.2]? = L.shapes[e.2]? := by
    intro e he
    have hlt := s.lt e he
    rw [hs, List.length_append, List.length_singleton] at hlt
    rw [h1]
    rcases hx with ⟨o', fmt, hxa, hx⟩ | ⟨hxa, hx⟩
    · have := hlast e he o' fmt hxa
      rw [hx, hs, List.getElem?_append_left this, List.getElem?_append_left this]
    · rw [hx, hs]
      by_cases hc : e.2 < f.length
      · rw [List.getElem?_append_left hc, List.getElem?_append_left hc]
      · have heq : e.2 = f.length := by omega
        rw [heq]; simp
  refine ⟨?_, ?_, ?_, ?_, ?_⟩
  · rw [h1]
    rcases hx with ⟨o', fmt, hxa, hx⟩ | ⟨hxa, hx⟩ <;> rw [hx] <;> simp
  · rw [h2, hser, ← s.shapes]
    exact List.map_congr_left (fun e he => by rw [hget e he])
  · rw [h2]
    intro e he hl hsh
    have hlt := s.lt e he
    rw [hs, List.length_append, List.length_singleton] at hlt
    rw [h1] at hl
    rcases hx with ⟨o', fmt, hxa, hx⟩ | ⟨hxa, hx⟩
    · have := hlast e he o' fmt hxa
      rw [hx, List.length_append, List.length_singleton] at hl
      omega
    · rw [hx] at hl
      simp only [List.length_append, List.length_cons, List.length_nil] at hl
      omega
  · rw [h2, h1]
    intro e he
    exact Nat.lt_of_lt_of_le (s.lt e he) (addShape_length _ _ _)
  · rw [h2, h1]
    intro j sh hj hna
    refine s.chunks j sh ?_ hna
    rcases hx with ⟨o', fmt, hxa, hx⟩ | ⟨hxa, hx⟩
    · rw [hx] at hj
      rw [hs]
      by_cases hc : j < f.length
      · rw [List.getElem?_append_left hc] at hj ⊢; exact hj
      · rw [List.getElem?_append_right (by omega)] at hj
        rcases hjj : j - f.length with _ | m
        · rw [hjj] at hj
          simp only [List.getElem?_cons_zero, Option.some.injEq] at hj
          exact absurd hj.symm (hna _ _)
        · rw [hjj] at hj; simp at hj
    · rw [hx] at hj
      rw [hs]
      by_cases hc : j < f.length
      · rw [List.getElem?_append_left hc] at hj ⊢; exact hj
      · rw [List.getElem?_append_right (by omega)] at hj ⊢
        rcases hjj : j - f.length with _ | m
        · rw [hjj] at hj; simpa using hj
        · rw [hjj] at hj
          rcases m with _ | m
          · simp only [List.getElem?_cons_succ, List.getElem?_cons_zero, Option.some.injEq] at hj
            exact absurd hj.symm (hna _ _)
          · simp at hj

theorem SerInv.add {L : Lay} {pre : List BOp} (s : SerInv L pre) (n : String) (sp : SerSpec)
    (hn : n ∉ (serialsOf pre).map (·.1)) : SerInv (L.addSer n sp.shape) (pre ++ [.serial n sp]) := by
  have hkeys : L.serials.map (·.1) = (serialsOf pre).map (·.1) := by
    have := congrArg (List.map (·.1)) s.shapes
    simpa [List.map_map, Function.comp_def] using this
  have hd : dset L.serials n L.shapes.length = L.serials ++ [(n, L.shapes.length)] := by
    refine dset_fresh _ _ _ (List.any_eq_false.mpr (fun e he h => hn ?_))
    rw [← hkeys]
    exact List.mem_map.mpr ⟨e, he, by simpa using h⟩
  have hser : serialsOf (pre ++ [.serial n sp]) = serialsOf pre ++ [(n, sp.shape)] := serialsOf_append _ _
  have e1 : (L.addSer n sp.shape).shapes = L.shapes ++ [sp.shape] := rfl
  have e2 : (L.addSer n sp.shape).serials = L.serials ++ [(n, L.shapes.length)] := hd
  refine ⟨by rw [e1]; simp, ?_, ?_, ?_, ?_⟩
  · rw [e1, e2, hser, List.map_append, List.map_append]
    congr 1
    · rw [← s.shapes]
      exact List.map_congr_left (fun e he => by rw [List.getElem?_append_left (s.lt e he)])
    · simp
  · rw [e1, e2]
    intro e he hl hsh
    rcases List.mem_append.mp he with h | h
    · have := s.lt e h
      simp only [List.length_append, List.length_singleton] at hl
      omega
    · rw [List.mem_singleton.mp h] at hsh
      obtain ⟨o, f, hsh⟩ := hsh
      simp only [List.getElem?_concat_length, Option.some.injEq] at hsh
      cases sp with
      | array o' ks => exact ⟨pre, n, o', ks, rfl⟩
      | fixed d => cases hsh
      | prefixed k o' => cases hsh
  · rw [e1, e2]
    intro e he
    rw [List.length_append, List.length_singleton]
    rcases List.mem_append.mp he with h | h
    · have := s.lt e h; omega
    · rw [List.mem_singleton.mp h]; dsimp only; omega
  · rw [e1, e2]
    intro j sh hj hna
    by_cases hc : j < L.shapes.length
    · rw [List.getElem?_append_left hc] at hj
      obtain ⟨m, hm⟩ := s.chunks j sh hj hna
      exact ⟨m, List.mem_append_left _ hm⟩
    · have hj2 : j < (L.shapes ++ [sp.shape]).length := (List.getElem?_eq_some_iff.mp hj).1
      rw [List.length_append, List.length_singleton] at hj2
      have : j = L.shapes.length := by omega
      exact ⟨n, List.mem_append_right _ (by rw [this]; simp)⟩

theorem serInv_steps (env : Env) (ops : List BOp) : ∀ (pre : List BOp) (L : Lay), SerInv L pre → NoGrow (pre ++ ops) →
    ((serialsOf (pre ++ ops)).map (·.1)).Nodup → SerInv (ops.foldl (Lay.step env) L) (pre ++ ops) := by
  induction ops with
  | nil => intro pre L s _ _; simpa using s
  | cons op r ih =>
    intro pre L s hng hnd
    have hap : pre ++ op :: r = (pre ++ [op]) ++ r := by simp
    have hng1 : NoGrow (pre ++ [op]) := by
      intro a n o ks op' b h
      refine hng a n o ks op' (b ++ r) ?_
      rw [hap, h]; simp
    rw [hap] at hng hnd ⊢
    rw [List.foldl_cons]
    refine ih _ _ ?_ hng hnd
    cases op with
    | field name kind enum len => exact s.grow _ (fun _ _ h => by cases h) hng1 _ _ rfl rfl
    | bits g => exact s.grow _ (fun _ _ h => by cases h) hng1 _ _ rfl rfl
    | serial n sp =>
      refine s.add n sp ?_
      rw [serialsOf_append, serialsOf_append, List.map_append, List.map_append] at hnd
      have h1 := (List.nodup_append.mp hnd).1
      exact fun hm => (List.nodup_append.mp h1).2.2 n hm n (by simp [serialsOf]) rfl

theorem serInv_all (env : Env) (o : ByteOrder) (ops : List BOp) (hng : NoGrow ops)
    (hnd : ((serialsOf ops).map (·.1)).Nodup) : SerInv (Lay.steps env o ops) ops := by
  refine serInv_steps env ops [] (Lay.new o) ⟨?_, ?_, ?_, ?_, ?_⟩ hng hnd
  · simp [Lay.new]
  · simp [Lay.new, serialsOf]
  · intro e he; cases he
  · intro e he; cases he
  · intro j s hj hna
    rcases j with _ | j
    · simp only [Lay.new, List.getElem?_cons_zero, Option.some.injEq] at hj
      exact absurd hj.symm (hna _ _)
    · simp [Lay.new] at hj

/-! ### Twins -/

/-- Two protocols of the same layout (their bit-fields may be numbered differently). -/
structure Twin (w1 : World) (p1 : Proto) (L1 : Lay) (l1 : List Nat) (w2 : World) (p2 : Proto) (L2 : Lay) (l2 : List Nat) :
    Prop where
  c1 : Core w1 p1 L1 l1
  c2 : Core w2 p2 L2 l2
  alike : Alike L1 L2
  bits : ∀ n, (∃ e, p1.findBits w1 n = .error e ∧ p2.findBits w2 n = .error e)
    ∨ ∃ k g1 g2 f, k < L1.count ∧ p1.findBits w1 n = .ok (⟨(slots w1.heap l1).getD k 0, g1⟩, f)
      ∧ p2.findBits w2 n = .ok (⟨(slots w2.heap l2).getD k 0, g2⟩, f)
  enums : ∀ n, dget p1.enumLookup n = dget p2.enumLookup n

theorem Alike.symm {a b : Lay} (h : Alike a b) : Alike b a :=
  ⟨h.order.symm, h.shapes.symm, h.regular.symm, h.enumFields.symm, h.serials.symm⟩

theorem Alike.count {a b : Lay} (h : Alike a b) : a.count = b.count := by simp only [Lay.count, h.shapes]

theorem Twin.symm {w1 : World} {p1 : Proto} {L1 : Lay} {l1 : List Nat} {w2 : World} {p2 : Proto} {L2 : Lay} {l2 : List Nat}
    (t : Twin w1 p1 L1 l1 w2 p2 L2 l2) : Twin w2 p2 L2 l2 w1 p1 L1 l1 := by
  refine ⟨t.c2, t.c1, t.alike.symm, fun n => ?_, fun n => (t.enums n).symm⟩
  rcases t.bits n with ⟨e, h1, h2⟩ | ⟨k, g1, g2, f, hk, h1, h2⟩
  · exact .inl ⟨e, h2, h1⟩
  · exact .inr ⟨k, g2, g1, f, by rw [← t.alike.count]; exact hk, h2, h1⟩

theorem Core.change {w : World} {p : Proto} {L : Lay} {l : List Nat} (c : Core w p L l) (h' : Heap)
    (hg : Good w.heap h') (hnext : ∀ k ∈ l, (h'.node k).next = (w.heap.node k).next)
    (hprims : ∀ k ∈ l, primsOf h' k = primsOf w.heap k) (hshape : ∀ k ∈ l, shape h' k = shape w.heap k)
    (hsound : ∀ k ∈ l, Sound h' k) : Core { w with heap := h' } p L l ∧ slots h' l = slots w.heap l := by
  obtain ⟨w1, w2, w3⟩ := (chain_iff _ _ _).mp c.chain
  have hs : slots h' l = slots w.heap l := flatMap_congr' l hprims
  refine ⟨⟨hg.1, Nat.lt_of_lt_of_le c.lt hg.2.nn, ?_, ?_, ?_, hsound, c.order, c.onat, c.head, ?_, c.regular_lt, c.serials,
    c.serials_lt, c.enumFields, c.lookup, c.enumLookup, c.build, c.names⟩, hs⟩
  · exact (chain_iff _ _ _).mpr ⟨w1, chained_frame _ _ l hnext w2, Nat.le_trans w3 hg.2.nn⟩
  · rw [← c.shapes]
    exact List.map_congr_left hshape
  · dsimp only; rw [hs]; exact c.nodup
  · dsimp only; rw [hs]; exact c.regular

theorem Core.dget_regular {w : World} {p : Proto} {L : Lay} {l : List Nat} (c : Core w p L l) (n : String) :
    dget p.regular n = (dget L.regular n).map (fun k => (slots w.heap l).getD k 0) := by
  rw [c.regular]; exact dget_map L.regular (fun k => (slots w.heap l).getD k 0) n

theorem Core.dget_serials {w : World} {p : Proto} {L : Lay} {l : List Nat} (c : Core w p L l) (n : String) :
    dget p.serials n = (dget L.serials n).map (fun k => l.getD k 0) := by
  rw [c.serials]; exact dget_map L.serials (fun k => l.getD k 0) n

/-- Twins with the same contents show the same values. -/
theorem Twin.values {w1 : World} {p1 : Proto} {L1 : Lay} {l1 : List Nat} {w2 : World} {p2 : Proto} {L2 : Lay} {l2 : List Nat}
    (t : Twin w1 p1 L1 l1 w2 p2 L2 l2) (hv : l1.map (view w1.heap) = l2.map (view w2.heap)) (name : String) :
    p1.getItem w1 name = p2.getItem w2 name ∧ ∀ res, p1.value w1 name res = p2.value w2 name res := by
  have hcell : ∀ k, k < L1.count → (w1.heap.prim ((slots w1.heap l1).getD k 0)).val
      = (w2.heap.prim ((slots w2.heap l2).getD k 0)).val := by
    intro k hk
    have h1 := getD_map (slots w1.heap l1) (fun q => ((w1.heap.prim q).kind, (w1.heap.prim q).val)) k 0 (.bool, .int 0)
      (by rw [t.c1.count]; exact hk)
    have h2 := getD_map (slots w2.heap l2) (fun q => ((w2.heap.prim q).kind, (w2.heap.prim q).val)) k 0 (.bool, .int 0)
      (by rw [t.c2.count, ← t.alike.count]; exact hk)
    rw [slots_view] at h1 h2
    rw [hv, ← h2] at h1
    exact (Prod.mk.inj h1).2
  have hbits : ∀ res, p1.getBits w1 name res = p2.getBits w2 name res := by
    intro res
    unfold Proto.getBits
    rcases t.bits name with ⟨e, h1, h2⟩ | ⟨k, g1, g2, f, hk, h1, h2⟩
    · rw [h1, h2]
    · rw [h1, h2]
      simp only [hcell k hk, t.enums name]
  have hval : ∀ res, p1.value w1 name res = p2.value w2 name res := by
    intro res
    unfold Proto.value
    rw [t.c1.dget_regular, t.c2.dget_regular, t.alike.regular]
    cases hd : dget L2.regular name with
    | none => exact hbits res
    | some k =>
      have hk : k < L1.count := by
        rw [t.alike.count]
        exact t.c2.regular_lt _ (dget_mem hd)
      simp only [Option.map_some, hcell k hk, t.c1.enumFields, t.c2.enumFields, t.alike.enumFields]
  refine ⟨?_, hval⟩
  unfold Proto.getItem
  rw [t.c1.dget_serials, t.c2.dget_serials, t.alike.serials]
  cases hd : dget L2.serials name with
  | none => exact hval true
  | some k =>
    simp only [Option.map_some, showNode_view]
    have hk := t.c2.serials_lt _ (dget_mem hd)
    have h1 := getD_map l1 (view w1.heap) k 0 (.fixed []) (by rw [t.c1.chain_len, t.alike.shapes]; exact hk)
    have h2 := getD_map l2 (view w2.heap) k 0 (.fixed []) (by rw [t.c2.chain_len]; exact hk)
    rw [h1, h2, hv]

/-- What one twin writes the other one reads, and then shows the same values. -/
theorem Twin.round_trip {w1 : World} {p1 : Proto} {L1 : Lay} {l1 : List Nat} {w2 : World} {p2 : Proto} {L2 : Lay} {l2 : List Nat}
    (t : Twin w1 p1 L1 l1 w2 p2 L2 l2) :
    ∃ bs, w1.heap.toStream p1.arr = .ok (bs, bs.length) ∧ w1.heap.length p1.arr = .ok bs.length
      ∧ ∀ rest, ∃ h', w2.heap.fromStream p2.arr (bs ++ rest) = (h', .ok (bs.length, rest))
        ∧ ∀ name, p2.getItem { w2 with heap := h' } name = p1.getItem w1 name
          ∧ ∀ res, p2.value { w2 with heap := h' } name res = p1.value w1 name res := by
  have c1 := t.c1
  have c2 := t.c2
  have hsh := forall2_shapes w1.heap w2.heap c1.ok l1 l2 (c1.shapes.trans (t.alike.shapes.trans c2.shapes.symm)) c2.sound
  have hn2 := chained_nodup w2.heap l2 ((chain_iff _ _ _).mp c2.chain).2.1
  obtain ⟨bs, b1, b2, b3⟩ := readAll_spec w1.heap c1.ok l1 l2 w2.heap c2.ok c1.sound hsh hn2 c2.nodup
  refine ⟨bs, by simp only [Heap.toStream, c1.chain, b1], by simp [Heap.length, c1.chain, Except.map, b2], fun rest => ?_⟩
  obtain ⟨h', s1, s2, s3, s4, s5, s6, s7, s8⟩ := b3 rest
  have hshape : ∀ k ∈ l2, shape h' k = shape w2.heap k := by
    have e1 : l2.map (shape h') = l2.map (shape w2.heap) := by
      rw [c2.shapes, ← t.alike.shapes, ← c1.shapes]
      have h1 : l2.map (shape h') = (l2.map (view h')).map viewShape := by
        rw [List.map_map]
        exact List.map_congr_left (fun k _ => shape_view h' s8.1 k)
      have h2 : l1.map (shape w1.heap) = (l1.map (view w1.heap)).map viewShape := by
        rw [List.map_map]
        exact List.map_congr_left (fun k _ => shape_view w1.heap c1.ok k)
      rw [h1, h2, s2]
    exact List.map_inj_left.mp e1
  obtain ⟨c3, hs3⟩ := c2.change h' s8 (fun k _ => s7 k) (fun k _ => s6 k) hshape s3
  have t3 : Twin { w2 with heap := h' } p2 L2 l2 w1 p1 L1 l1 := by
    have t2 := t.symm
    refine ⟨c3, c1, t2.alike, fun n => ?_, t2.enums⟩
    have := t2.bits n
    dsimp only
    rw [hs3]
    exact this
  exact ⟨h', by simp only [Heap.fromStream, c2.chain, s1], fun name => t3.values s2 name⟩

end Verif.Protocol
