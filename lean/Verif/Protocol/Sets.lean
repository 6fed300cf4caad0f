import Verif.Protocol.Props
/-! C28: setting fields. -/
namespace Verif.Protocol

open Verif.Wire Verif.Serial Verif.Registry

/-- Values a field can take: of the kind of the primitive (or integers, which wrap), strings of the
length of a fixed chunk, strings short enough for a prefix. -/
def Lay.Fits (L : Lay) (name : String) (v : PVal) : Prop :=
  match dget L.regular name with
  | some k => ∀ kind, (kindsOf L.shapes)[k]? = some kind →
    match v with
    | .val x => Spec.HasKind kind (storeVal kind x)
    | .str _ => kind ≠ .float ∧ kind ≠ .double
    | .cells _ => True
  | none =>
    match dget L.serials name, v with
    | some i, .str s =>
      match L.shapes[i]? with
      | some (.fixed n) => (utf8 s.toList).length = n
      | some (.prefixed k _) => ((utf8 s.toList).length : Int) ≤ Spec.hi k
      | _ => True
    | _, _ => True

theorem Rep.kind {w : World} {p : Proto} {L : Lay} {l : List Nat} (r : Rep w p L l) (k : Nat) (hk : k < L.count) :
    (kindsOf L.shapes)[k]? = some (w.heap.prim ((slots w.heap l).getD k 0)).kind := by
  have h1 := slots_kinds w.heap r.core.ok l
  rw [r.core.shapes] at h1
  rw [← h1, List.getElem?_map, List.getD_eq_getElem _ _ (by rw [r.core.count]; exact hk),
    List.getElem?_eq_getElem (by rw [r.core.count]; exact hk)]
  rfl

theorem Rep.setPrim {w : World} {p : Proto} {L : Lay} {l : List Nat} (r : Rep w p L l) (q : Nat) (v : Val)
    (hv : Spec.HasKind (w.heap.prim q).kind (storeVal (w.heap.prim q).kind v)) :
    Rep { w with heap := w.heap.setPrim q v } p L l :=
  r.change _ (good_setPrim w.heap r.core.ok q v hv) (fun _ _ => rfl) (fun _ _ => rfl) (fun _ _ => rfl) r.core.sound

theorem setBody_ne (h : Heap) (i : Nat) (b : Body) (k : Nat) (hk : k ≠ i) : (h.setBody i b).node k = h.node k := by
  simp [Heap.setBody, Heap.setNode, hk]

theorem setBody_self (h : Heap) (i : Nat) (b : Body) : (h.setBody i b).node i = ⟨b, (h.node i).next⟩ := by
  simp [Heap.setBody, Heap.setNode]

theorem Rep.setBody {w : World} {p : Proto} {L : Lay} {l : List Nat} (r : Rep w p L l) (i : Nat) (b : Body)
    (hb : ∀ a, b ≠ .array a) (hna : ∀ a, (w.heap.node i).body ≠ .array a)
    (hshape : shape (w.heap.setBody i b) i = shape w.heap i) (hs : Sound (w.heap.setBody i b) i) :
    Rep { w with heap := w.heap.setBody i b } p L l := by
  refine r.change _ (good_setBody' w.heap r.core.ok i b hb) (fun k _ => ?_) (fun k _ => ?_) (fun k _ => ?_) (fun k hk => ?_)
  · by_cases hk : k = i
    · subst hk; rw [setBody_self]
    · rw [setBody_ne _ _ _ _ hk]
  · by_cases hk : k = i
    · subst hk
      simp only [primsOf, setBody_self]
    · simp only [primsOf, setBody_ne _ _ _ _ hk]
  · by_cases hk : k = i
    · subst hk; exact hshape
    · simp only [shape, setBody_ne _ _ _ _ hk]
  · by_cases hki : k = i
    · subst hki; exact hs
    · have := r.core.sound k hk
      simpa only [Sound, setBody_ne _ _ _ _ hki] using this

theorem intOf_kind (k : IntKind) (v : Val) (h : Spec.HasKind (.int k) v) : ∃ x, v = .int x ∧ packable k.size k.signed x = true := by
  cases v with
  | int x => exact ⟨x, rfl, (packable_iff k x).mpr h⟩
  | bool b => cases h
  | f32 b => cases h
  | f64 b => cases h

theorem hasKind_int (k : Kind) (i : Int) (h1 : k ≠ .float) (h2 : k ≠ .double) : Spec.HasKind k (storeVal k (.int i)) := by
  cases k with
  | int k => exact (packable_iff k _).mp (wrap_packable k _)
  | bool => trivial
  | float => exact absurd rfl h1
  | double => exact absurd rfl h2

theorem unpack_kinds (o : ByteOrder) (fmt : List Kind) (d : Bytes) (vs : List Val) (h : unpack o fmt d = .ok vs) :
    List.Forall₂ Spec.HasKind fmt vs := by
  unfold unpack at h
  split at h
  · exact unpackFrom_kinds o fmt 0 d vs h
  · cases h

theorem update_fits (k : IntKind) (hu : k.signed = false) (n : Nat) (h : (n : Int) ≤ Spec.hi k) : wrap k n = n := by
  apply wrap_of_packable
  refine (packable_iff k _).mpr ⟨?_, h⟩
  have : Spec.lo k = 0 := by cases k <;> first | rfl | simp [IntKind.signed] at hu
  omega

/-- What happens to the heap when a field is set. -/
inductive Effect (w : World) (p : Proto) (L : Lay) (l : List Nat) (name : String) (w' : World) : Prop where
  | same : w' = w → Effect w p L l name w'
  | regular (k : Nat) (v : Val) : dget L.regular name = some k →
      w' = { w with heap := w.heap.setPrim ((slots w.heap l).getD k 0) v } → Effect w p L l name w'
  | bits (k : Nat) (g : Bits.Group) (f : Bits.Field) (v : Int) : L.findBits name = .ok (k, g, f) →
      dget L.regular name = none →
      w' = ⟨w.heap.setPrim ((slots w.heap l).getD k 0)
        (.int (Bits.writeField g.kind (intOf (w.heap.prim ((slots w.heap l).getD k 0)).val) f.index f.width v).1), w.names⟩ →
      Effect w p L l name w'
  | serial (i : Nat) (s : String) : dget L.serials name = some i → dget L.regular name = none →
      w' = { w with heap := (w.heap.update (l.getD i 0) (utf8 s.toList)).1 } → Effect w p L l name w'

theorem setItem_effect (env : Env) {w : World} {p : Proto} {L : Lay} {l : List Nat} (r : Rep w p L l) (name : String)
    (v : PVal) : Effect w p L l name (p.setItem env w name v).1 := by
  unfold Proto.setItem
  rw [r.dget_regular]
  cases hr : dget L.regular name with
  | some k =>
    simp only [Option.map_some]
    cases v with
    | val x => exact .regular k x hr rfl
    | cells c => exact .same rfl
    | str s =>
      dsimp only
      cases dget p.enumFields name with
      | none => exact .same rfl
      | some e =>
        dsimp only
        cases getInt env.parseInt e.map (.name s) with
        | error x => exact .same rfl
        | ok i => exact .regular k (.int i) hr rfl
  | none =>
    simp only [Option.map_none]
    have hbits : Effect w p L l name (p.setBits env w name v).1 := by
      unfold Proto.setBits
      rw [r.findBits]
      cases hf : L.findBits name with
      | error e => exact .same rfl
      | ok t =>
        obtain ⟨k, g, f⟩ := t
        simp only [Except.map]
        cases bitsArg env p name v with
        | error e => exact .same rfl
        | ok x => exact .bits k g f x hf hr rfl
    rw [r.dget_serials]
    cases hs : dget L.serials name with
    | none => exact hbits
    | some i =>
      simp only [Option.map_some]
      cases v with
      | val x => exact hbits
      | cells c => exact hbits
      | str s => exact .serial i s hs hr rfl

/-- Setting a field keeps the layout. -/
theorem Rep.setItem (env : Env) {w : World} {p : Proto} {L : Lay} {l : List Nat} (r : Rep w p L l) (name : String)
    (v : PVal) (hf : L.Fits name v) : Rep (p.setItem env w name v).1 p L l := by
  unfold Proto.setItem
  unfold Lay.Fits at hf
  rw [r.dget_regular]
  cases hr : dget L.regular name with
  | some k =>
    rw [hr] at hf
    simp only [Option.map_some]
    have hk := r.kind k (r.lay.regular_lt _ (dget_mem hr))
    have hf := hf _ hk
    cases v with
    | val x => exact r.setPrim _ _ hf
    | cells c => exact r
    | str s =>
      dsimp only
      cases dget p.enumFields name with
      | none => exact r
      | some e =>
        dsimp only
        cases getInt env.parseInt e.map (.name s) with
        | error x => exact r
        | ok i => exact r.setPrim _ _ (hasKind_int _ i hf.1 hf.2)
  | none =>
    rw [hr] at hf
    simp only [Option.map_none]
    have hbits : Rep (p.setBits env w name v).1 p L l := by
      unfold Proto.setBits
      rw [r.findBits]
      cases hfb : L.findBits name with
      | error e => exact r
      | ok t =>
        obtain ⟨k, g, f⟩ := t
        obtain ⟨idx, hg, -⟩ := Lay.findBits_mem hfb
        have hm := List.mem_of_getElem? hg
        have h1 := r.groups.kinds _ hm
        have h2 := r.kind k (r.lay.groups_lt _ hm)
        dsimp only at h1
        rw [h2] at h1
        simp only [Except.map]
        cases bitsArg env p name v with
        | error e => exact r
        | ok x =>
          refine r.setPrim _ _ ?_
          rw [Option.some.inj h1]
          exact hasKind_int _ _ (fun h => by cases h) (fun h => by cases h)
    rw [r.dget_serials]
    cases hs : dget L.serials name with
    | none => exact hbits
    | some i =>
      rw [hs] at hf
      simp only [Option.map_some]
      cases v with
      | val x => exact hbits
      | cells c => exact hbits
      | str s =>
        dsimp only at hf ⊢
        have hi := r.lay.serials_lt _ (dget_mem hs)
        have hi' : i < l.length := by rw [r.core.chain_len]; exact hi
        generalize hj : l.getD i 0 = j
        have hjl : j ∈ l := by rw [← hj, List.getD_eq_getElem _ _ hi']; exact List.getElem_mem _
        have hsh : L.shapes[i]? = some (shape w.heap j) := by
          rw [← r.core.shapes, List.getElem?_map, List.getElem?_eq_getElem hi', ← hj, List.getD_eq_getElem _ _ hi']
          rfl
        rw [hsh] at hf
        have hso := r.core.sound j hjl
        unfold Heap.update
        cases hb : (w.heap.node j).body with
        | fixed d =>
          simp only [shape, hb] at hf
          refine r.setBody j _ (fun a ha => by cases ha) (fun a ha => by rw [hb] at ha; cases ha) ?_ ?_
          · simp only [shape, setBody_self, hb, hf]
          · simp only [Sound, setBody_self]
        | prefixed q =>
          simp only [shape, hb] at hf
          simp only [Sound, hb] at hso
          have hw := update_fits q.kind hso.unsigned _ hf
          have hq : q.update (utf8 s.toList) = (⟨q.kind, q.order, (utf8 s.toList).length, utf8 s.toList,
              q.kind.size + (utf8 s.toList).length⟩, .ok (q.kind.size + (utf8 s.toList).length)) := by
            simp only [Pre.update, Pre.updateSize, hw, if_true, Int.toNat_natCast]
          refine r.setBody j _ (fun a ha => by cases ha) (fun a ha => by rw [hb] at ha; cases ha) ?_ ?_
          · simp only [shape, setBody_self, hb, hq]
          · simp only [Sound, setBody_self, hq]
            refine ⟨hso.unsigned, rfl, ?_, rfl⟩
            show packable q.kind.size q.kind.signed ((utf8 s.toList).length : Int) = true
            rw [← hw]; exact wrap_packable _ _
        | array a =>
          dsimp only
          cases hu : unpack a.order a.fmt (utf8 s.toList) with
          | error e => exact r
          | ok vs =>
            dsimp only
            have ha := r.core.ok.arrays j a hb
            have hty := unpack_kinds _ _ _ _ hu
            have hv : List.Forall₂ (fun r v => Spec.HasKind (w.heap.prim r).kind v) a.prims vs := by
              rw [ha.fmt] at hty
              exact List.forall₂_map_left_iff.mp hty
            obtain ⟨f1, f2, f3, f4, -⟩ := setAll_frame a.prims vs w.heap
            refine r.change _ (good_setAll w.heap r.core.ok a.prims vs hv) ?_ ?_ ?_ ?_
            · intro k _; rw [f1]
            · intro k _; simp only [primsOf, f1]
            · intro k _; simp only [shape, f1]
            · intro k hk; simp only [Sound, f1]; exact r.core.sound k hk

/-- Setting several fields; exceptions are ignored. -/
def Proto.sets (env : Env) (w : World) (p : Proto) : List (String × PVal) → World
  | [] => w
  | (n, v) :: rest => Proto.sets env (p.setItem env w n v).1 p rest

theorem Rep.sets (env : Env) {w : World} {p : Proto} {L : Lay} {l : List Nat} (r : Rep w p L l)
    (s : List (String × PVal)) (hf : ∀ e ∈ s, L.Fits e.1 e.2) : Rep (p.sets env w s) p L l := by
  induction s generalizing w with
  | nil => exact r
  | cons x rest ih =>
    obtain ⟨n, v⟩ := x
    exact ih (r.setItem env n v (hf _ List.mem_cons_self)) (fun e he => hf e (List.mem_cons_of_mem _ he))

/-- Reading a bit field that does not overlap with one just written. -/
theorem read_other (k : IntKind) (x v : Int) (f f' : Bits.Field) (hf : f.width = 0 ∨ f.index + f.width ≤ k.bits)
    (hf' : f'.width = 0 ∨ f'.index + f'.width ≤ k.bits)
    (hd : ∀ j, ¬ (Bits.Spec.Covers f.index f.width j ∧ Bits.Spec.Covers f'.index f'.width j)) :
    Bits.readField (Bits.writeField k x f.index f.width v).1 f'.index f'.width = Bits.readField x f'.index f'.width := by
  rcases hf' with h0 | hf'
  · rw [h0, Bits.readField_arith, Bits.readField_arith]; simp
  · rw [Bits.readField_patt _ _ _ _ hf', Bits.readField_patt x _ _ _ hf', Bits.writeField_patt _ _ _ _ _ hf]
    congr 1
    apply Nat.eq_of_testBit_eq
    intro j
    rw [Nat.testBit_mod_two_pow, Nat.testBit_mod_two_pow, Nat.testBit_div_two_pow, Nat.testBit_div_two_pow,
      Bits.testBit_setBits]
    by_cases hj : j < f'.width
    · have : ¬ (f.index ≤ j + f'.index ∧ j + f'.index < f.index + f.width) := fun hc =>
        hd (j + f'.index) ⟨hc, ⟨by omega, by omega⟩⟩
      rw [if_neg this]
    · simp [hj]

/-- The stored value after writing a bit field. -/
theorem intOf_written (k : IntKind) (x v : Int) (i w : Nat) :
    intOf (storeVal (.int k) (.int (Bits.writeField k x i w v).1)) = (Bits.writeField k x i w v).1 := by
  simp only [storeVal, intOf]
  exact wrap_of_packable _ _ (Bits.writeField_packable _ _ _ _ _)

theorem setPrim_ne (h : Heap) (r : Nat) (v : Val) (q : Nat) (hq : q ≠ r) : (h.setPrim r v).prim q = h.prim q := by
  simp [Heap.setPrim, hq]

theorem setPrim_self (h : Heap) (r : Nat) (v : Val) : (h.setPrim r v).prim r = ⟨(h.prim r).kind, storeVal (h.prim r).kind v⟩ := by
  simp [Heap.setPrim]

theorem Rep.slot_ne {w : World} {p : Proto} {L : Lay} {l : List Nat} (r : Rep w p L l) (a b : Nat) (ha : a < L.count)
    (hb : b < L.count) (hab : a ≠ b) : (slots w.heap l).getD a 0 ≠ (slots w.heap l).getD b 0 := by
  rw [List.getD_eq_getElem _ _ (by rw [r.core.count]; exact ha), List.getD_eq_getElem _ _ (by rw [r.core.count]; exact hb)]
  intro h
  exact hab ((r.core.nodup.getElem_inj_iff).mp h)

/-- `name` does not stand for an array of its own. -/
def Lay.NoArray (L : Lay) (name : String) : Prop :=
  ∀ i o f, dget L.serials name = some i → L.shapes[i]? ≠ some (.array o f)

/-- Setting one name leaves the others as they are. -/
theorem rep_set (env : Env) {w : World} {p : Proto} {L : Lay} {l : List Nat} (r : Rep w p L l) (x y : String)
    (v : PVal) (hxy : x ≠ y) (hx : L.NoArray x) (hy : L.NoArray y) :
    p.getItem (p.setItem env w x v).1 y = p.getItem w y
      ∧ ∀ res, p.value (p.setItem env w x v).1 y res = p.value w y res := by
  have heff := setItem_effect env r x v
  generalize (p.setItem env w x v).1 = w' at *
  -- the node of `y`
  have hynode : ∀ i, dget L.serials y = some i → i < l.length ∧ ∀ a, (w.heap.node (l.getD i 0)).body ≠ .array a := by
    intro i hi
    have hlt : i < l.length := by rw [r.core.chain_len]; exact r.lay.serials_lt _ (dget_mem hi)
    refine ⟨hlt, fun a ha => ?_⟩
    refine hy i a.order a.fmt hi ?_
    rw [← r.core.shapes, List.getElem?_map, List.getElem?_eq_getElem hlt]
    rw [List.getD_eq_getElem _ _ hlt] at ha
    simp only [Option.map_some, shape, ha]
  -- enough: names, the node of `y`, its primitive and its bits
  have hframe : ∀ h' : Heap,
      (∀ i, dget L.serials y = some i → (h'.node (l.getD i 0)).body = (w.heap.node (l.getD i 0)).body) →
      (∀ k, dget L.regular y = some k → h'.prim ((slots w.heap l).getD k 0) = w.heap.prim ((slots w.heap l).getD k 0)) →
      (∀ k g f, L.findBits y = .ok (k, g, f) →
        Bits.readField (intOf (h'.prim ((slots w.heap l).getD k 0)).val) f.index f.width
          = Bits.readField (intOf (w.heap.prim ((slots w.heap l).getD k 0)).val) f.index f.width) →
      p.getItem ⟨h', w.names⟩ y = p.getItem w y ∧ ∀ res, p.value ⟨h', w.names⟩ y res = p.value w y res := by
    intro h' h1 h2 h3
    have hbits : ∀ res, p.getBits ⟨h', w.names⟩ y res = p.getBits w y res := by
      intro res
      unfold Proto.getBits
      have hfb : p.findBits ⟨h', w.names⟩ y = p.findBits w y := rfl
      rw [hfb, r.findBits]
      cases hf : L.findBits y with
      | error e => rfl
      | ok t =>
        obtain ⟨k, g, f⟩ := t
        simp only [Except.map]
        rw [h3 k g f hf]
    have hval : ∀ res, p.value ⟨h', w.names⟩ y res = p.value w y res := by
      intro res
      unfold Proto.value
      rw [r.dget_regular]
      cases hd : dget L.regular y with
      | none => exact hbits res
      | some k => simp only [Option.map_some, h2 k hd]
    refine ⟨?_, hval⟩
    unfold Proto.getItem
    rw [r.dget_serials]
    cases hd : dget L.serials y with
    | none => exact hval true
    | some i =>
      have hb := h1 i hd
      have hna := (hynode i hd).2
      simp only [Option.map_some, showNode, hb]
      cases hbo : (w.heap.node (l.getD i 0)).body with
      | array a => exact absurd hbo (hna a)
      | fixed d => rfl
      | prefixed d => rfl
  cases heff with
  | same e => subst e; exact ⟨rfl, fun _ => rfl⟩
  | regular k u hk e =>
    subst e
    have hkc := r.lay.regular_lt _ (dget_mem hk)
    refine hframe _ (fun _ _ => rfl) (fun k' hk' => ?_) (fun k' g f hf => ?_)
    · have hkc' := r.lay.regular_lt _ (dget_mem hk')
      refine setPrim_ne _ _ _ _ (r.slot_ne _ _ hkc' hkc (fun h => ?_))
      exact hxy (r.lay.regular _ (dget_mem hk) _ (dget_mem hk') h.symm)
    · obtain ⟨idx, hg, -⟩ := Lay.findBits_mem hf
      have hm := List.mem_of_getElem? hg
      rw [setPrim_ne _ _ _ _ (r.slot_ne _ _ (r.lay.groups_lt _ hm) hkc
        (fun h => r.lay.apart _ (dget_mem hk) _ hm h.symm))]
  | bits k g f u hf hreg e =>
    subst e
    obtain ⟨idx, hg, hfd⟩ := Lay.findBits_mem hf
    have hm := List.mem_of_getElem? hg
    dsimp only at hg hfd hm
    have hkc := r.lay.groups_lt _ hm
    refine hframe _ (fun _ _ => rfl) (fun k' hk' => ?_) (fun k' g' f' hf' => ?_)
    · have hkc' := r.lay.regular_lt _ (dget_mem hk')
      exact setPrim_ne _ _ _ _ (r.slot_ne _ _ hkc' hkc (fun h => r.lay.apart _ (dget_mem hk') _ hm h))
    · obtain ⟨idx', hg', hfd'⟩ := Lay.findBits_mem hf'
      have hm' := List.mem_of_getElem? hg'
      dsimp only at hg' hfd' hm'
      by_cases hkk : k' = k
      · subst hkk
        have hidx : idx' = idx := by
          have hn := r.lay.groups
          have h1 : (L.groups.map (·.1))[idx]? = some k' := by rw [List.getElem?_map, hg]; rfl
          have h2 : (L.groups.map (·.1))[idx']? = some k' := by rw [List.getElem?_map, hg']; rfl
          have hlt : idx' < (L.groups.map (·.1)).length := (List.getElem?_eq_some_iff.mp h2).1
          exact (List.getElem?_inj hlt hn).mp (h2.trans h1.symm)
        subst hidx
        rw [hg] at hg'
        cases hg'
        have h1 := r.groups.kinds _ hm
        have h2 := r.kind k' hkc
        dsimp only at h1
        rw [h2] at h1
        rw [setPrim_self, Option.some.inj h1]
        dsimp only
        rw [intOf_written]
        exact read_other _ _ _ f f' (r.lay.inside _ hm _ _ (dget_mem hfd)) (r.lay.inside _ hm _ _ (dget_mem hfd'))
          (r.lay.disjoint _ hm x f y f' hfd hfd' hxy)
      · rw [setPrim_ne _ _ _ _ (r.slot_ne _ _ (r.lay.groups_lt _ hm') hkc hkk)]
  | serial i s hi hreg e =>
    subst e
    have hlt : i < l.length := by rw [r.core.chain_len]; exact r.lay.serials_lt _ (dget_mem hi)
    have hna : ∀ a, (w.heap.node (l.getD i 0)).body ≠ .array a := by
      intro a ha
      refine hx i a.order a.fmt hi ?_
      rw [← r.core.shapes, List.getElem?_map, List.getElem?_eq_getElem hlt]
      rw [List.getD_eq_getElem _ _ hlt] at ha
      simp only [Option.map_some, shape, ha]
    have hnodup := chained_nodup w.heap l ((chain_iff _ _ _).mp r.core.chain).2.1
    have hupd : (w.heap.update (l.getD i 0) (utf8 s.toList)).1.prim = w.heap.prim
        ∧ ∀ k, k ≠ l.getD i 0 → (w.heap.update (l.getD i 0) (utf8 s.toList)).1.node k = w.heap.node k := by
      unfold Heap.update
      cases hb : (w.heap.node (l.getD i 0)).body with
      | array a => exact absurd hb (hna a)
      | fixed d => exact ⟨rfl, fun k hk => setBody_ne _ _ _ _ hk⟩
      | prefixed d => exact ⟨rfl, fun k hk => setBody_ne _ _ _ _ hk⟩
    refine hframe _ (fun i' hi' => ?_) (fun k' _ => by rw [hupd.1]) (fun k' g' f' _ => by rw [hupd.1])
    rw [hupd.2 _ ?_]
    have hlt' := (hynode i' hi').1
    rw [List.getD_eq_getElem _ _ hlt', List.getD_eq_getElem _ _ hlt]
    intro h
    have : i' = i := (hnodup.getElem_inj_iff).mp h
    exact hxy (r.lay.serials _ (dget_mem hi) _ (dget_mem hi') this.symm)

/-! ### The property -/

/-- C28. Two instances built by the same steps (in any two worlds), whose fields were then set in
any way: what the first writes, the second reads back, consuming exactly the bytes written, and
afterwards every name has the same value in both, for both ways of reading. -/
theorem C28_round_trip (env : Env) (ops : List BOp) (hops : ∀ op ∈ ops, op.Ok) (o : ByteOrder) (ho : o ≠ .native)
    (id1 id2 : Int) (w1 w2 : World) (ok1 : HeapOk w1.heap) (ok2 : HeapOk w2.heap) (v1 v2 : World) (p1 p2 : Proto)
    (b1 : (Proto.new w1 o id1).2.steps env (Proto.new w1 o id1).1 ops = .ok (v1, p1))
    (b2 : (Proto.new w2 o id2).2.steps env (Proto.new w2 o id2).1 ops = .ok (v2, p2))
    (s1 s2 : List (String × PVal)) (f1 : ∀ e ∈ s1, (Lay.steps env o ops).Fits e.1 e.2)
    (f2 : ∀ e ∈ s2, (Lay.steps env o ops).Fits e.1 e.2) :
    ∃ bs, (p1.sets env v1 s1).heap.toStream p1.arr = .ok (bs, bs.length)
      ∧ (p1.sets env v1 s1).heap.length p1.arr = .ok bs.length
      ∧ ∀ rest, ∃ h', (p2.sets env v2 s2).heap.fromStream p2.arr (bs ++ rest) = (h', .ok (bs.length, rest))
        ∧ ∀ name, p2.getItem { p2.sets env v2 s2 with heap := h' } name = p1.getItem (p1.sets env v1 s1) name
          ∧ ∀ res, p2.value { p2.sets env v2 s2 with heap := h' } name res = p1.value (p1.sets env v1 s1) name res := by
  obtain ⟨l1, r1, -⟩ := rep_steps env (rep_new w1 ok1 o ho id1) ops hops v1 p1 b1
  obtain ⟨l2, r2, -⟩ := rep_steps env (rep_new w2 ok2 o ho id2) ops hops v2 p2 b2
  obtain ⟨bs, e1, e2, e3⟩ := rep_round_trip (r1.sets env s1 f1) (r2.sets env s2 f2)
  refine ⟨bs, e1, e2, fun rest => ?_⟩
  obtain ⟨h', h1, -, h3⟩ := e3 rest
  exact ⟨h', h1, h3⟩

/-- C28. In an instance built by any steps, whose fields were then set in any way, setting one name
leaves every other name as it is (names of arrays added as serializables apart: they show the
fields added behind them, see `C28_array_shows_field_fails`). -/
theorem C28_set (env : Env) (ops : List BOp) (hops : ∀ op ∈ ops, op.Ok) (o : ByteOrder) (ho : o ≠ .native)
    (id : Int) (w : World) (ok : HeapOk w.heap) (v : World) (p : Proto)
    (b : (Proto.new w o id).2.steps env (Proto.new w o id).1 ops = .ok (v, p))
    (s : List (String × PVal)) (f : ∀ e ∈ s, (Lay.steps env o ops).Fits e.1 e.2)
    (x y : String) (hxy : x ≠ y) (hx : (Lay.steps env o ops).NoArray x) (hy : (Lay.steps env o ops).NoArray y) (u : PVal) :
    p.getItem (p.setItem env (p.sets env v s) x u).1 y = p.getItem (p.sets env v s) y
      ∧ ∀ res, p.value (p.setItem env (p.sets env v s) x u).1 y res = p.value (p.sets env v s) y res := by
  obtain ⟨l1, r1, -⟩ := rep_steps env (rep_new w ok o ho id) ops hops v p b
  exact rep_set env (r1.sets env s f) x y u hxy hx hy

end Verif.Protocol
