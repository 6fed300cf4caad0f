import Verif.Protocol.Layout
import Mathlib.Data.List.GetD
/-! Protocols as instances of a layout. -/
namespace Verif.Protocol

open Verif.Wire Verif.Serial Verif.Registry

/-- The kinds of the primitives along a chain of shapes. -/
def kindsOf (ss : List Shape) : List Kind :=
  ss.flatMap (fun s => match s with
    | .array _ f => f
    | _ => [])

theorem kindsOf_append (a b : List Shape) : kindsOf (a ++ b) = kindsOf a ++ kindsOf b := by
  simp [kindsOf]

theorem kindsOf_addShape (o : ByteOrder) (ks : List Kind) (ss : List Shape) :
    kindsOf (addShape o ks ss) = kindsOf ss ++ ks := by
  rcases List.eq_nil_or_concat ss with rfl | ⟨f, x, rfl⟩
  · simp [kindsOf, addShape]
  · rw [List.concat_eq_append, addShape_append, kindsOf_append, kindsOf_append, List.append_assoc]
    congr 1
    cases x <;> simp [kindsOf, addShape]

theorem slots_kinds (h : Heap) (hok : HeapOk h) (l : List Nat) :
    (slots h l).map (fun q => (h.prim q).kind) = kindsOf (l.map (shape h)) := by
  induction l with
  | nil => rfl
  | cons x xs ih =>
    simp only [slots, kindsOf, List.flatMap_cons, List.map_append, List.map_cons] at ih ⊢
    rw [ih]
    congr 1
    unfold primsOf shape
    cases hb : (h.node x).body with
    | array a => exact (hok.arrays x a hb).fmt.symm
    | fixed d => rfl
    | prefixed p => rfl

theorem slots_lt (h : Heap) (hok : HeapOk h) (l : List Nat) : ∀ q ∈ slots h l, q < h.np := by
  intro q hq
  obtain ⟨k, -, hk⟩ := List.mem_flatMap.mp hq
  unfold primsOf at hk
  cases hb : (h.node k).body with
  | array a => rw [hb] at hk; exact (hok.arrays k a hb).refs q hk
  | fixed d => rw [hb] at hk; cases hk
  | prefixed p => rw [hb] at hk; cases hk

/-- A layout: what a protocol looks like without its objects. Fields are numbered positions in the
sequence of primitives, serializables are positions in the chain. -/
structure Lay where
  order : ByteOrder
  shapes : List Shape
  regular : List (String × Nat)
  enumFields : List (String × Enum)
  groups : List (Nat × Bits.Group)
  lookup : List (String × Nat)
  enumLookup : List (String × Enum)
  build : List BuildItem
  serials : List (String × Nat)

def Lay.count (L : Lay) : Nat := (kindsOf L.shapes).length

def Lay.new (o : ByteOrder) : Lay := ⟨o, [.array o []], [], [], [], [], [], [], []⟩

/-- The kind of a field given a kind and an enumeration. -/
def resolve (env : Env) (kind : Option Kind) : Option (Key Int) → Option Kind
  | none => kind
  | some key => (env.enums key).map (fun e => kind.getD e.kind)

def Lay.addField (env : Env) (L : Lay) (name : String) (k : Kind) (enum : Option (Key Int))
    (len : Option Nat) (track : Bool) : Lay :=
  { L with
    enumFields := match enum.bind env.enums with
      | none => L.enumFields
      | some e => dset L.enumFields name e
    regular := dset L.regular name L.count
    shapes := addShape L.order (List.replicate (len.getD 1 - 1 + 1) k) L.shapes
    build := if track then L.build ++ [.spec ⟨name, k, enum, len⟩] else L.build }

/-- The two look-up tables after entering the names of a group. -/
def enterAll (env : Env) (idx : Nat) : List (String × Bits.Field) → List (String × Nat) × List (String × Enum) →
    List (String × Nat) × List (String × Enum)
  | [], t => t
  | (name, f) :: rest, t =>
    enterAll env idx rest (dset t.1 name idx,
      match f.enum.bind (fun key => env.enums (.id key)) with
      | none => t.2
      | some e => dset t.2 name e)

def Lay.addBits (env : Env) (L : Lay) (g : Bits.Group) (track : Bool) : Lay :=
  { L with
    groups := L.groups ++ [(L.count, g.finalize)]
    lookup := (enterAll env L.groups.length g.fields (L.lookup, L.enumLookup)).1
    enumLookup := (enterAll env L.groups.length g.fields (L.lookup, L.enumLookup)).2
    shapes := addShape L.order [.int g.kind] L.shapes
    build := if track then L.build ++ [.bits L.groups.length] else L.build }

def Lay.addSer (L : Lay) (name : String) (s : Shape) : Lay :=
  { L with
    serials := dset L.serials name L.shapes.length
    shapes := L.shapes ++ [s]
    build := L.build ++ [.ser name] }

def SerSpec.shape : SerSpec → Shape
  | .fixed d => .fixed d.length
  | .prefixed k o => .prefixed k o
  | .array o ks => .array o ks

def Lay.step (env : Env) (L : Lay) : BOp → Lay
  | .field name kind enum len => L.addField env name ((resolve env kind enum).getD .bool) enum len true
  | .bits g => L.addBits env g true
  | .serial name s => L.addSer name s.shape

/-- The layout described by a list of building steps. -/
def Lay.steps (env : Env) (o : ByteOrder) (ops : List BOp) : Lay := ops.foldl (Lay.step env) (Lay.new o)

/-- A protocol has a layout; everything but its bit-fields. -/
structure Core (w : World) (p : Proto) (L : Lay) (l : List Nat) : Prop where
  ok : HeapOk w.heap
  lt : p.arr < w.heap.nn
  chain : w.heap.chain p.arr = .ok l
  shapes : l.map (shape w.heap) = L.shapes
  nodup : (slots w.heap l).Nodup
  sound : ∀ k ∈ l, Sound w.heap k
  order : p.order = L.order
  onat : L.order ≠ .native
  head : ∃ fmt t, L.shapes = .array L.order fmt :: t
  regular : p.regular = L.regular.map (fun e => (e.1, (slots w.heap l).getD e.2 0))
  regular_lt : ∀ e ∈ L.regular, e.2 < L.count
  serials : p.serials = L.serials.map (fun e => (e.1, l.getD e.2 0))
  serials_lt : ∀ e ∈ L.serials, e.2 < L.shapes.length
  enumFields : p.enumFields = L.enumFields
  lookup : p.lookup = L.lookup
  enumLookup : p.enumLookup = L.enumLookup
  build : p.build = L.build
  names : ∀ e ∈ L.lookup, e.1 ∈ w.names

/-- The bit-fields of a protocol. -/
structure Groups (w : World) (p : Proto) (L : Lay) (l : List Nat) : Prop where
  groups : p.groups = L.groups.map (fun e => ⟨(slots w.heap l).getD e.1 0, e.2⟩)
  kinds : ∀ e ∈ L.groups, (kindsOf L.shapes)[e.1]? = some (.int e.2.kind)

theorem Core.count {w : World} {p : Proto} {L : Lay} {l : List Nat} (c : Core w p L l) :
    (slots w.heap l).length = L.count := by
  have := congrArg List.length (slots_kinds w.heap c.ok l)
  rw [List.length_map, c.shapes] at this
  exact this

theorem Core.chain_len {w : World} {p : Proto} {L : Lay} {l : List Nat} (c : Core w p L l) :
    l.length = L.shapes.length := by rw [← c.shapes, List.length_map]

/-- Other objects may be created. -/
theorem Core.frame {w : World} {p : Proto} {L : Lay} {l : List Nat} (c : Core w p L l) (h' : Heap)
    (hg : Good w.heap h') (hn : ∀ k, k < w.heap.nn → h'.node k = w.heap.node k) :
    Core { w with heap := h' } p L l ∧ slots h' l = slots w.heap l := by
  obtain ⟨w1, w2, w3⟩ := (chain_iff _ _ _).mp c.chain
  obtain ⟨-, hlt⟩ := chain_lt _ c.ok _ c.lt _ c.chain
  have hl : ∀ k ∈ l, h'.node k = w.heap.node k := fun k hk => hn k (hlt k hk)
  have hs : slots h' l = slots w.heap l := flatMap_congr' l (fun k hk => by simp only [primsOf, hl k hk])
  refine ⟨⟨hg.1, Nat.lt_of_lt_of_le c.lt hg.2.nn, ?_, ?_, ?_, ?_, c.order, c.onat, c.head, ?_, c.regular_lt, c.serials,
    c.serials_lt, c.enumFields, c.lookup, c.enumLookup, c.build, c.names⟩, hs⟩
  · exact (chain_iff _ _ _).mpr ⟨w1, chained_frame _ _ l (fun k hk => by rw [hl k hk]) w2,
      Nat.le_trans w3 hg.2.nn⟩
  · rw [← c.shapes]
    exact List.map_congr_left (fun k hk => by simp only [shape, hl k hk])
  · dsimp only; rw [hs]; exact c.nodup
  · intro k hk
    have := c.sound k hk
    simpa only [Sound, hl k hk] using this
  · dsimp only; rw [hs]; exact c.regular

theorem map_getD_append (R : List (String × Nat)) (a b : List Nat) (h : ∀ e ∈ R, e.2 < a.length) :
    R.map (fun e => (e.1, (a ++ b).getD e.2 0)) = R.map (fun e => (e.1, a.getD e.2 0)) :=
  List.map_congr_left (fun e he => by rw [List.getD_append _ _ _ _ (h e he)])

theorem dset_map {α β : Type} (d : List (String × α)) (f : α → β) (k : String) (v : α) :
    dset (d.map (fun e => (e.1, f e.2))) k (f v) = (dset d k v).map (fun e => (e.1, f e.2)) := by
  unfold dset
  rw [List.any_map]
  have : ((fun (p : String × β) => p.1 == k) ∘ fun e : String × α => (e.1, f e.2)) = fun e => e.1 == k := rfl
  rw [this]
  split
  · rw [List.map_map, List.map_map]
    apply List.map_congr_left
    intro e _
    simp only [Function.comp]
    split <;> rfl
  · simp

theorem mem_dset {α : Type} {d : List (String × α)} {k : String} {v : α} {e : String × α} (h : e ∈ dset d k v) :
    e = (k, v) ∨ e ∈ d := by
  unfold dset at h
  split at h
  · obtain ⟨x, hx, rfl⟩ := List.mem_map.mp h
    split
    · exact .inl rfl
    · exact .inr hx
  · rcases List.mem_append.mp h with h | h
    · exact .inr h
    · exact .inl (List.mem_singleton.mp h)

theorem addShape_head (o : ByteOrder) (ks : List Kind) (ss : List Shape) (f : List Kind) (t : List Shape)
    (h : ss = .array o f :: t) : ∃ f' t', addShape o ks ss = .array o f' :: t' := by
  subst h
  cases t with
  | nil => exact ⟨_, _, rfl⟩
  | cons y ys => exact ⟨_, _, rfl⟩

theorem addShape_length (o : ByteOrder) (ks : List Kind) (ss : List Shape) : ss.length ≤ (addShape o ks ss).length := by
  rcases List.eq_nil_or_concat ss with rfl | ⟨f, x, rfl⟩
  · simp
  · rw [List.concat_eq_append, addShape_append, List.length_append, List.length_append]
    cases x <;> simp [addShape]

/-- Adding a primitive that is not yet part of the chain. -/
theorem Core.add {w : World} {p : Proto} {L : Lay} {l : List Nat} (c : Core w p L l) (r : Nat) (hr : r < w.heap.np)
    (hnew : r ∉ slots w.heap l) (len : Option Nat) :
    ∃ h' n l' rs, w.heap.add p.arr r len = (h', .ok n) ∧ slots h' l' = slots w.heap l ++ r :: rs
      ∧ Good w.heap h' ∧ (∀ q, q < w.heap.np → h'.prim q = w.heap.prim q)
      ∧ (∀ q ∈ rs, h'.prim q = w.heap.prim r) ∧ l <+: l' ∧ l'.length = (addShape L.order
          (List.replicate (len.getD 1 - 1 + 1) (w.heap.prim r).kind) L.shapes).length
      ∧ (∀ k ∈ l, (∀ a, (w.heap.node k).body ≠ .array a) → (h'.node k).body = (w.heap.node k).body)
      ∧ (∀ q ∈ rs, w.heap.np ≤ q) ∧ (∀ k ∈ l', k ∈ l ∨ w.heap.nn ≤ k)
      ∧ (∀ k, k < w.heap.nn → k ∉ l → h'.node k = w.heap.node k)
      ∧ Core { w with heap := h' } p { L with
          shapes := addShape L.order (List.replicate (len.getD 1 - 1 + 1) (w.heap.prim r).kind) L.shapes } l' := by
  obtain ⟨w1, w2, w3⟩ := (chain_iff _ _ _).mp c.chain
  obtain ⟨f, t, hh⟩ := c.head
  have hne : l ≠ [] := fun e => by rw [e] at w1; cases w1
  obtain ⟨self, hself, ho⟩ : ∃ self, (w.heap.node p.arr).body = .array self ∧ self.order = L.order := by
    cases l with
    | nil => exact absurd rfl hne
    | cons x xs =>
      simp only [List.head?_cons, Option.some.injEq] at w1
      subst w1
      have hs := c.shapes
      rw [hh, List.map_cons, List.cons.injEq] at hs
      have := hs.1
      unfold shape at this
      cases hb : (w.heap.node p.arr).body with
      | array a => rw [hb] at this; simp only [Shape.array.injEq] at this; exact ⟨a, rfl, this.1⟩
      | fixed d => rw [hb] at this; cases this
      | prefixed q => rw [hb] at this; cases this
  obtain ⟨h', n, l', rs, e, A⟩ := add_added w.heap c.ok p.arr l c.lt c.chain self hself r hr len
  have hc := c.count
  have hl' : l'.length = (addShape L.order
      (List.replicate (len.getD 1 - 1 + 1) (w.heap.prim r).kind) L.shapes).length := by
    rw [← c.shapes, ← ho, ← A.shapes, List.length_map]
  refine ⟨h', n, l', rs, e, A.slots, A.good, A.prims, A.vals, A.pre, hl', A.old, fun q hq => (A.fresh q hq).1, A.nodes, A.frame, ?_⟩
  have hreg : L.regular.map (fun e => (e.1, (slots h' l').getD e.2 0))
      = L.regular.map (fun e => (e.1, (slots w.heap l).getD e.2 0)) := by
    rw [A.slots]
    exact map_getD_append _ _ _ (fun e he => by rw [hc]; exact c.regular_lt e he)
  obtain ⟨t', ht'⟩ := A.pre
  have hser : L.serials.map (fun e => (e.1, l'.getD e.2 0)) = L.serials.map (fun e => (e.1, l.getD e.2 0)) := by
    rw [← ht']
    exact map_getD_append _ _ _ (fun e he => by rw [c.chain_len]; exact c.serials_lt e he)
  refine ⟨A.good.1, Nat.lt_of_lt_of_le c.lt A.good.2.nn, A.chain, ?_, ?_, A.sound c.sound (ho ▸ c.onat), c.order, c.onat, ?_, ?_, ?_,
    ?_, ?_, c.enumFields, c.lookup, c.enumLookup, c.build, c.names⟩
  · dsimp only
    rw [A.shapes, c.shapes, ho]
  · dsimp only
    rw [A.slots]
    refine List.nodup_append.mpr ⟨c.nodup, List.nodup_cons.mpr ⟨fun hm => ?_, A.nodup⟩, ?_⟩
    · have := (A.fresh r hm).1; omega
    · intro a ha b hb hab
      subst hab
      rcases List.mem_cons.mp hb with rfl | hb
      · exact hnew ha
      · have h1 := (A.fresh a hb).1
        have h2 := slots_lt w.heap c.ok l a ha
        omega
  · exact addShape_head _ _ _ f t hh
  · dsimp only; rw [hreg]; exact c.regular
  · intro e he
    have := c.regular_lt e he
    simp only [Lay.count, kindsOf_addShape, List.length_append] at this ⊢
    omega
  · dsimp only; rw [hser]; exact c.serials
  · intro e he
    exact Nat.lt_of_lt_of_le (c.serials_lt e he) (addShape_length _ _ _)

theorem Groups.mono {w w' : World} {p p' : Proto} {L L' : Lay} {l l' : List Nat} (c : Core w p L l) (g : Groups w p L l)
    (hp : p'.groups = p.groups) (hL : L'.groups = L.groups) (b : List Nat)
    (hs : slots w'.heap l' = slots w.heap l ++ b) (ks : List Kind) (hk : kindsOf L'.shapes = kindsOf L.shapes ++ ks) :
    Groups w' p' L' l' := by
  have hlt : ∀ e ∈ L.groups, e.1 < L.count := by
    intro e he
    have := g.kinds e he
    rcases List.getElem?_eq_some_iff.mp this with ⟨h, -⟩
    exact h
  refine ⟨?_, ?_⟩
  · rw [hp, hL, g.groups, hs]
    exact List.map_congr_left (fun e he => by rw [List.getD_append _ _ _ _ (by rw [c.count]; exact hlt e he)])
  · intro e he
    rw [hL] at he
    rw [hk, List.getElem?_append_left (hlt e he)]
    exact g.kinds e he

/-! ### Building steps -/

theorem register_ok (env : Env) (w w' : World) (name : String) (h : w.register env name = (w', .ok ())) :
    w'.heap = w.heap ∧ name ∈ w'.names ∧ ∀ n ∈ w.names, n ∈ w'.names := by
  unfold World.register at h
  split at h
  · cases h; exact ⟨rfl, by assumption, fun _ h => h⟩
  · split at h
    · cases h; exact ⟨rfl, by simp, fun _ h => List.mem_append_left _ h⟩
    · cases h

theorem register_known (env : Env) (w : World) (name : String) (h : name ∈ w.names) :
    w.register env name = (w, .ok ()) := by
  unfold World.register; rw [if_pos h]

theorem Core.names_mono {w w' : World} {p : Proto} {L : Lay} {l : List Nat} (c : Core w p L l)
    (hh : w'.heap = w.heap) (hn : ∀ n ∈ w.names, n ∈ w'.names) : Core w' p L l := by
  obtain ⟨heap, names⟩ := w'
  dsimp only at hh hn
  subst hh
  exact ⟨c.ok, c.lt, c.chain, c.shapes, c.nodup, c.sound, c.order, c.onat, c.head, c.regular, c.regular_lt, c.serials,
    c.serials_lt, c.enumFields, c.lookup, c.enumLookup, c.build, fun e he => hn _ (c.names e he)⟩

theorem zeroVal_kind (k : Kind) : Spec.HasKind k (storeVal k (zeroVal k)) := by
  cases k with
  | int k => exact (packable_iff k _).mp (wrap_packable k _)
  | bool => simp [zeroVal, storeVal, Spec.HasKind]
  | float => simp [zeroVal, storeVal, Spec.HasKind]
  | double => simp [zeroVal, storeVal, Spec.HasKind]

theorem newPrim_frame {w : World} {p : Proto} {L : Lay} {l : List Nat} (c : Core w p L l) (k : Kind) (v : Val)
    (hv : Spec.HasKind k (storeVal k v)) :
    Core { w with heap := (w.heap.newPrim k v).1 } p L l ∧ slots (w.heap.newPrim k v).1 l = slots w.heap l
      ∧ (w.heap.newPrim k v).2 = w.heap.np ∧ w.heap.np ∉ slots w.heap l
      ∧ (w.heap.newPrim k v).1.np = w.heap.np + 1
      ∧ ((w.heap.newPrim k v).1.prim w.heap.np) = ⟨k, storeVal k v⟩
      ∧ ∀ q, q < w.heap.np → (w.heap.newPrim k v).1.prim q = w.heap.prim q := by
  obtain ⟨c', hs⟩ := c.frame _ (good_newPrim w.heap c.ok k v hv) (fun _ _ => rfl)
  refine ⟨c', hs, rfl, fun hm => Nat.lt_irrefl _ (slots_lt _ c.ok l _ hm), rfl, ?_, ?_⟩
  · simp [Heap.newPrim]
  · intro q hq
    simp only [Heap.newPrim]
    rw [if_neg (by omega)]

/-- What a building step keeps: names stay registered, primitives keep their values, chunks their
content. -/
structure Kept (w w' : World) (l : List Nat) : Prop where
  good : Good w.heap w'.heap
  names : ∀ n ∈ w.names, n ∈ w'.names
  prims : ∀ q, q < w.heap.np → w'.heap.prim q = w.heap.prim q
  old : ∀ k ∈ l, (∀ a, (w.heap.node k).body ≠ .array a) → (w'.heap.node k).body = (w.heap.node k).body
  frame : ∀ k, k < w.heap.nn → k ∉ l → w'.heap.node k = w.heap.node k

theorem addField_ok (env : Env) {w : World} {p : Proto} {L : Lay} {l : List Nat} (c : Core w p L l)
    (name : String) (kind : Option Kind) (enum : Option (Key Int)) (len : Option Nat) (track : Bool) (w1 : World)
    (hreg : w.register env name = (w1, .ok ())) (k : Kind) (hk : resolve env kind enum = some k) :
    ∃ w' p' n l' b, p.addField env w name kind enum len track = (w', p', .ok n) ∧ l <+: l'
      ∧ Core w' p' (L.addField env name k enum len track) l' ∧ slots w'.heap l' = slots w.heap l ++ b
      ∧ p'.groups = p.groups ∧ p'.arr = p.arr ∧ p'.id = p.id ∧ Kept w w' l
      ∧ (∀ q ∈ b, w.heap.np ≤ q) ∧ (∀ k ∈ l', k ∈ l ∨ w.heap.nn ≤ k) ∧ name ∈ w'.names := by
  obtain ⟨hh, hn, hm⟩ := register_ok env w w1 name hreg
  have c1 : Core w1 p L l := c.names_mono hh hm
  obtain ⟨c2, hs2, hr2, hr3, hnp, hpr, hold⟩ := newPrim_frame c1 k (zeroVal k) (zeroVal_kind k)
  obtain ⟨h', n, l', rs, e, hs, hg, hp, hv, hpre, hlen, hbod, hfr, hnd, hfm, c3⟩ := c2.add w1.heap.np (by dsimp only; rw [hnp]; omega)
    (by dsimp only; rw [hs2]; exact hr3) len
  dsimp only at c3 hlen e hs hg hp hv hbod hfr hnd hfm
  rw [hpr] at c3 hlen
  dsimp only at c3 hlen
  rw [hs2] at hs
  -- the resolved enumeration
  generalize hp1 : ({ p with enumFields := match enum.bind env.enums with
      | none => p.enumFields
      | some e => dset p.enumFields name e } : Proto) = p1
  have hp1a : p1.arr = p.arr := by rw [← hp1]
  have hp1r : p1.regular = p.regular := by rw [← hp1]
  have hp1b : p1.build = p.build := by rw [← hp1]
  have hres : p.addField env w name kind enum len track =
      (match (w1.heap.newPrim k (zeroVal k)).1.add p1.arr (w1.heap.newPrim k (zeroVal k)).2 len with
      | (h, .error e) => ({ w1 with heap := h }, p1, .error e)
      | (h, .ok n) =>
        ({ w1 with heap := h },
          { p1 with regular := dset p1.regular name (w1.heap.newPrim k (zeroVal k)).2,
                    build := if track then p1.build ++ [.spec ⟨name, k, enum, len⟩] else p1.build }, .ok n)) := by
    unfold Proto.addField
    rw [hreg]
    dsimp only
    cases enum with
    | none =>
      simp only [resolve] at hk
      subst hk
      simp only [Option.bind_none] at hp1
      subst hp1
      rfl
    | some key =>
      simp only [resolve] at hk
      cases hke : env.enums key with
      | none => rw [hke] at hk; cases hk
      | some en =>
        rw [hke] at hk
        simp only [Option.map_some, Option.some.injEq] at hk
        subst hk
        simp only [Option.bind_some, hke] at hp1
        subst hp1
        simp only [hke]
        rfl
  rw [hres, hp1a, hr2, e]
  dsimp only
  refine ⟨_, _, n, l', w1.heap.np :: rs, rfl, hpre, ?_, hs.trans (by rw [hh]), by rw [← hp1], rfl, by rw [← hp1], ?_, ?_, ?_, hn⟩
  · have hcnt : (slots w1.heap l).length = L.count := c1.count
    have hser : p1.serials = p.serials := by rw [← hp1]
    refine ⟨c3.ok, c3.lt, c3.chain, c3.shapes, c3.nodup, c3.sound,
      by rw [← hp1]; exact c3.order, c3.onat, c3.head, ?_, ?_, by rw [← hp1]; exact c3.serials, c3.serials_lt, ?_,
      by rw [← hp1]; exact c3.lookup, by rw [← hp1]; exact c3.enumLookup, ?_, c3.names⟩
    · have h1 := c3.regular
      dsimp only at h1 ⊢
      rw [hp1r, h1]
      have h2 : w1.heap.np = (slots h' l').getD L.count 0 := by
        rw [hs, ← hcnt, List.getD_append_right _ _ _ _ (Nat.le_refl _), Nat.sub_self]; rfl
      conv_lhs => rw [h2]
      exact dset_map L.regular (fun n => (slots h' l').getD n 0) name L.count
    · intro e he
      rcases mem_dset he with rfl | he
      · simp only [Lay.count, Lay.addField, kindsOf_addShape, List.length_append, List.length_replicate]
        omega
      · exact c3.regular_lt e he
    · rw [← hp1]
      simp only [Lay.addField, c.enumFields]
    · dsimp only
      rw [hp1b]
      simp only [Lay.addField, c.build]
  · have hg1 := good_newPrim w1.heap c1.ok k (zeroVal k) (zeroVal_kind k)
    rw [hh] at hg1 hg hold hp hbod hnp hfm
    refine ⟨hg1.trans hg, hm, fun q hq => ?_, fun k' hk' hna => ?_, fun k' hk' hkl => ?_⟩
    · rw [hp q (by rw [hnp]; omega), hold q hq]
    · exact hbod k' hk' hna
    · exact hfm k' hk' hkl
  · intro q hq
    rw [← hh]
    rcases List.mem_cons.mp hq with rfl | hq
    · exact Nat.le_refl _
    · have := hfr q hq; rw [hnp] at this; omega
  · rw [← hh]; exact hnd

/-- Conversely, a field that was added had a name and a kind. -/
theorem addField_inv (env : Env) (w w' : World) (p p' : Proto) (name : String) (kind : Option Kind)
    (enum : Option (Key Int)) (len : Option Nat) (track : Bool) (n : Nat)
    (h : p.addField env w name kind enum len track = (w', p', .ok n)) :
    ∃ w1 k, w.register env name = (w1, .ok ()) ∧ resolve env kind enum = some k := by
  unfold Proto.addField at h
  rcases hr : w.register env name with ⟨w1, _ | ⟨⟩⟩
  · rw [hr] at h; cases h
  · rw [hr] at h
    refine ⟨w1, ?_⟩
    cases enum with
    | none =>
      cases kind with
      | none => cases h
      | some k => exact ⟨k, rfl, rfl⟩
    | some key =>
      cases hk : env.enums key with
      | none => simp only [hk] at h; cases h
      | some e => exact ⟨kind.getD e.kind, rfl, by simp [resolve, hk]⟩

theorem enter_ok (env : Env) (idx : Nat) (fs : List (String × Bits.Field)) (w w' : World) (p p' : Proto)
    (h : Proto.enter env w p idx fs = (w', p', .ok ())) :
    w'.heap = w.heap ∧ (∀ n ∈ w.names, n ∈ w'.names) ∧ (∀ e ∈ fs, e.1 ∈ w'.names)
      ∧ (∀ e ∈ fs, ∀ key, e.2.enum = some key → (env.enums (.id key)).isSome)
      ∧ p' = { p with lookup := (enterAll env idx fs (p.lookup, p.enumLookup)).1,
                      enumLookup := (enterAll env idx fs (p.lookup, p.enumLookup)).2 } := by
  induction fs generalizing w p with
  | nil => cases h; exact ⟨rfl, fun _ h => h, fun _ h => (by cases h), fun _ h => (by cases h), rfl⟩
  | cons x rest ih =>
    obtain ⟨name, f⟩ := x
    unfold Proto.enter at h
    rcases hr : w.register env name with ⟨w1, _ | ⟨⟩⟩
    · rw [hr] at h; cases h
    · rw [hr] at h
      obtain ⟨r1, r2, r3⟩ := register_ok env w w1 name hr
      dsimp only at h
      cases he : f.enum with
      | none =>
        rw [he] at h
        obtain ⟨i1, i2, i3, i4, i5⟩ := ih w1 _ h
        refine ⟨i1.trans r1, fun n hn => i2 n (r3 n hn), fun e hm => ?_, fun e hm => ?_, ?_⟩
        · rcases List.mem_cons.mp hm with rfl | hm
          · exact i2 _ r2
          · exact i3 e hm
        · rcases List.mem_cons.mp hm with rfl | hm
          · intro key hk; rw [he] at hk; cases hk
          · exact i4 e hm
        · rw [i5]; simp only [enterAll, he, Option.bind_none]
      | some key =>
        rw [he] at h
        dsimp only at h
        cases hk : env.enums (.id key) with
        | none => rw [hk] at h; cases h
        | some en =>
          rw [hk] at h
          obtain ⟨i1, i2, i3, i4, i5⟩ := ih w1 _ h
          refine ⟨i1.trans r1, fun n hn => i2 n (r3 n hn), fun e hm => ?_, fun e hm => ?_, ?_⟩
          · rcases List.mem_cons.mp hm with rfl | hm
            · exact i2 _ r2
            · exact i3 e hm
          · rcases List.mem_cons.mp hm with rfl | hm
            · intro key' hk'; rw [he] at hk'; cases hk'; rw [hk]; rfl
            · exact i4 e hm
          · rw [i5]; simp only [enterAll, he, Option.bind_some, hk]

theorem enter_known (env : Env) (idx : Nat) (fs : List (String × Bits.Field)) (w : World) (p : Proto)
    (hn : ∀ e ∈ fs, e.1 ∈ w.names) (he : ∀ e ∈ fs, ∀ key, e.2.enum = some key → (env.enums (.id key)).isSome) :
    ∃ p', Proto.enter env w p idx fs = (w, p', .ok ()) := by
  induction fs generalizing p with
  | nil => exact ⟨p, rfl⟩
  | cons x rest ih =>
    obtain ⟨name, f⟩ := x
    unfold Proto.enter
    rw [register_known env w name (hn _ List.mem_cons_self)]
    dsimp only
    have hn' : ∀ e ∈ rest, e.1 ∈ w.names := fun e h => hn e (List.mem_cons_of_mem _ h)
    have he' : ∀ e ∈ rest, ∀ key, e.2.enum = some key → (env.enums (.id key)).isSome :=
      fun e h => he e (List.mem_cons_of_mem _ h)
    cases hf : f.enum with
    | none => exact ih _ hn' he'
    | some key =>
      dsimp only
      have := he _ List.mem_cons_self key hf
      cases hk : env.enums (.id key) with
      | none => rw [hk] at this; cases this
      | some en => exact ih _ hn' he'

theorem enterAll_keys (env : Env) (idx : Nat) (fs : List (String × Bits.Field))
    (t : List (String × Nat) × List (String × Enum)) :
    ∀ e ∈ (enterAll env idx fs t).1, e ∈ t.1 ∨ e.2 = idx ∧ ∃ f ∈ fs, f.1 = e.1 := by
  induction fs generalizing t with
  | nil => exact fun e h => .inl h
  | cons x rest ih =>
    intro e h
    rcases ih _ e h with h | ⟨h1, f, h2, h3⟩
    · rcases mem_dset h with rfl | h
      · exact .inr ⟨rfl, x, List.mem_cons_self, rfl⟩
      · exact .inl h
    · exact .inr ⟨h1, f, List.mem_cons_of_mem _ h2, h3⟩

/-- Adding a group whose primitive is not yet part of the chain. -/
theorem addBitFields_ok (env : Env) {w : World} {p : Proto} {L : Lay} {l : List Nat} (c : Core w p L l)
    (g : BitGroup) (track : Bool) (hr : g.ref < w.heap.np) (hnew : g.ref ∉ slots w.heap l)
    (hkind : (w.heap.prim g.ref).kind = .int g.grp.kind) (n : Nat) (hn : p.groups.length = n)
    (w1 : World) (p1 : Proto) (hent : Proto.enter env w { p with groups := p.groups ++ [⟨g.ref, g.grp.finalize⟩] } n
      g.grp.fields = (w1, p1, .ok ())) :
    ∃ w' p' l', p.addBitFields env w g track = (w', p', .ok ()) ∧ l <+: l'
      ∧ Core w' p' { L.addBits env g.grp track with
          lookup := (enterAll env n g.grp.fields (L.lookup, L.enumLookup)).1
          enumLookup := (enterAll env n g.grp.fields (L.lookup, L.enumLookup)).2
          build := if track then L.build ++ [.bits n] else L.build } l'
      ∧ slots w'.heap l' = slots w.heap l ++ [g.ref]
      ∧ p'.groups = p.groups ++ [⟨g.ref, g.grp.finalize⟩] ∧ p'.arr = p.arr ∧ p'.id = p.id ∧ Kept w w' l
      ∧ (∀ k ∈ l', k ∈ l ∨ w.heap.nn ≤ k) ∧ (∀ e ∈ g.grp.fields, e.1 ∈ w'.names)
      ∧ (∀ e ∈ g.grp.fields, ∀ key, e.2.enum = some key → (env.enums (.id key)).isSome) := by
  obtain ⟨e1, e2, e3, e4, e5⟩ := enter_ok env n g.grp.fields w w1 _ p1 hent
  have c1 : Core w1 p L l := c.names_mono e1 e2
  obtain ⟨h', m, l', rs, e, hs, hg, hp, hv, hpre, hlen, hbod, hfr, hnd, hfm, c3⟩ := c1.add g.ref (by rw [e1]; exact hr)
    (by rw [e1]; exact hnew) none
  have hrs : rs = [] := by
    have h1 := c3.count
    have h2 := c1.count
    simp only [Lay.count, kindsOf_addShape, List.length_append, hs, List.length_cons, List.length_replicate,
      Option.getD_none] at h1 h2
    exact List.eq_nil_of_length_eq_zero (by omega)
  subst hrs
  have hres : p.addBitFields env w g track = ({ w1 with heap := h' },
      { p1 with build := if track then p1.build ++ [.bits n] else p1.build }, .ok ()) := by
    unfold Proto.addBitFields Proto.addGroup
    dsimp only
    have hfin : (g.grp.finalize).fields = g.grp.fields := rfl
    rw [hfin, hn, hent]
    dsimp only
    have : p1.arr = p.arr := by rw [e5]
    rw [this, e]
  refine ⟨_, _, l', hres, hpre, ?_, ?_, by rw [e5], by rw [e5], by rw [e5], ?_, by rw [← e1]; exact hnd, e3, e4⟩
  · simp only [Option.getD_none, e1, hkind] at c3
    refine ⟨c3.ok, by rw [e5]; exact c3.lt, by rw [e5]; exact c3.chain, c3.shapes, c3.nodup, c3.sound,
      by rw [e5]; exact c3.order, c3.onat, c3.head, by rw [e5]; exact c3.regular, c3.regular_lt,
      by rw [e5]; exact c3.serials, c3.serials_lt, by rw [e5]; exact c3.enumFields, ?_, ?_, ?_, ?_⟩
    · rw [e5]; simp only [c.lookup, c.enumLookup]
    · rw [e5]; simp only [c.lookup, c.enumLookup]
    · rw [e5]; simp only [c.build]
    · intro x hx
      rcases enterAll_keys _ _ _ _ x hx with hx | ⟨-, f, hf, hfx⟩
      · exact e2 _ (c.names x hx)
      · exact hfx ▸ e3 f hf
  · rw [← e1]; exact hs
  · rw [e1] at hg hp hbod hfm
    exact ⟨hg, e2, hp, hbod, hfm⟩

/-- Appending a new serializable. -/
theorem addSerializable_ok (env : Env) {w : World} {p : Proto} {L : Lay} {l : List Nat} (c : Core w p L l)
    (name : String) (i : Nat) (hi : i < w.heap.nn) (hnext : (w.heap.node i).next = none) (hnot : i ∉ l)
    (hs : Sound w.heap i) (hp : (primsOf w.heap i).Nodup) (hpd : ∀ q ∈ primsOf w.heap i, q ∉ slots w.heap l)
    (w1 : World) (hreg : w.register env name = (w1, .ok ())) :
    ∃ w' p' n, p.addSerializable env w name i none = (w', p', .ok n)
      ∧ Core w' p' (L.addSer name (shape w.heap i)) (l ++ [i])
      ∧ slots w'.heap (l ++ [i]) = slots w.heap l ++ primsOf w.heap i
      ∧ p'.groups = p.groups ∧ p'.arr = p.arr ∧ p'.id = p.id ∧ Kept w w' l
      ∧ (∀ k, (w'.heap.node k).body = (w.heap.node k).body) ∧ w'.heap.prim = w.heap.prim
      ∧ (∀ k, k ∉ l → (w'.heap.node k).next = (w.heap.node k).next)
      ∧ w'.heap.np = w.heap.np ∧ w'.heap.nn = w.heap.nn ∧ name ∈ w'.names := by
  obtain ⟨hh, hn, hm⟩ := register_ok env w w1 name hreg
  have hci : w.heap.chain i = .ok [i] := (chain_iff _ _ _).mpr ⟨rfl, hnext, by simp; omega⟩
  obtain ⟨e, he⟩ : ∃ e, l.getLast? = some e := by
    have := (chain_lt _ c.ok _ c.lt _ c.chain).1
    exact ⟨_, List.getLast?_eq_some_getLast this⟩
  have hne : l.getLast? ≠ [i].getLast? := by
    rw [he]
    intro h
    simp only [List.getLast?_singleton, Option.some.injEq] at h
    exact hnot (h ▸ List.mem_of_getLast? he)
  obtain ⟨a1, a2, a3⟩ := assign_spec w.heap c.ok p.arr i e l [i] c.lt hi c.chain hci he
    (by simp; rintro rfl; exact hnot (List.mem_of_getLast? he))
  have hadd : w.heap.addToEnd p.arr i none = ((w.heap.assign e i).1, .ok (w.heap.node i).body.size) := by
    unfold Heap.addToEnd
    dsimp only
    rw [lastOf_eq w.heap p.arr e l c.chain he]
    dsimp only
    rw [a1]
  generalize hH : (w.heap.assign e i).1 = h' at *
  have hbody : ∀ k, (h'.node k).body = (w.heap.node k).body := fun k => by
    rw [← hH, a1]; exact (setNext_view w.heap e _ k).2
  have hprim : h'.prim = w.heap.prim := by rw [← hH, a1]; rfl
  have hnp : h'.np = w.heap.np := by rw [← hH, a1]; rfl
  have hnn : h'.nn = w.heap.nn := by rw [← hH, a1]; rfl
  have hsl : slots h' (l ++ [i]) = slots w.heap l ++ primsOf w.heap i := by
    simp only [slots, List.flatMap_append, List.flatMap_cons, List.flatMap_nil, List.append_nil]
    congr 1
    · exact flatMap_congr' l (fun k _ => by simp only [primsOf, hbody])
    · simp only [primsOf, hbody]
  have hshape : ∀ k, shape h' k = shape w.heap k := fun k => by simp only [shape, hbody]
  have hsound : ∀ k, Sound w.heap k → Sound h' k := fun k => by simp only [Sound, hbody]; exact id
  have hnx : ∀ k, k ∉ l → (h'.node k).next = (w.heap.node k).next := by
    intro k hk
    have hke : k ≠ e := by rintro rfl; exact hk (List.mem_of_getLast? he)
    rw [← hH, a1]
    simp [Heap.setNode, hke]
  refine ⟨{ w1 with heap := h' }, { p with serials := dset p.serials name i, build := p.build ++ [.ser name] },
    (w.heap.node i).body.size, ?_, ?_, hsl, rfl, rfl, rfl, ?_, hbody, hprim, hnx, hnp, hnn, hn⟩
  · unfold Proto.addSerializable
    rw [hreg]
    dsimp only
    rw [hh, hadd]
  · have hcnt := c.count
    refine ⟨a3, by rw [hnn]; exact c.lt, a2, ?_, ?_, ?_, c.order, c.onat, ?_, ?_, ?_, ?_, ?_, c.enumFields,
      c.lookup, c.enumLookup, ?_, fun x hx => hm _ (c.names x hx)⟩
    · simp only [List.map_append, List.map_cons, List.map_nil, hshape, Lay.addSer]
      rw [← c.shapes]
      congr 1
      exact List.map_congr_left (fun k _ => hshape k)
    · dsimp only
      rw [hsl]
      exact List.nodup_append.mpr ⟨c.nodup, hp, fun a ha b hb hab => hpd b hb (hab ▸ ha)⟩
    · intro k hk
      rcases List.mem_append.mp hk with hk | hk
      · exact hsound k (c.sound k hk)
      · rw [List.mem_singleton.mp hk]; exact hsound i hs
    · obtain ⟨f, t, ht⟩ := c.head
      exact ⟨f, t ++ [shape w.heap i], by simp only [Lay.addSer, ht, List.cons_append]⟩
    · dsimp only
      rw [hsl]
      simp only [Lay.addSer]
      rw [map_getD_append _ _ _ (fun e he => by rw [hcnt]; exact c.regular_lt e he)]
      exact c.regular
    · intro x hx
      have := c.regular_lt x hx
      simp only [Lay.count, Lay.addSer, kindsOf_append, List.length_append] at this ⊢
      omega
    · dsimp only
      simp only [Lay.addSer]
      have h1 : p.serials = L.serials.map (fun e => (e.1, (l ++ [i]).getD e.2 0)) := by
        rw [map_getD_append _ _ _ (fun e he => by rw [c.chain_len]; exact c.serials_lt e he)]
        exact c.serials
      have h2 : i = (l ++ [i]).getD L.shapes.length 0 := by
        rw [← c.chain_len, List.getD_append_right _ _ _ _ (Nat.le_refl _), Nat.sub_self]; rfl
      rw [h1]
      conv_lhs => rw [show dset (L.serials.map (fun e => (e.1, (l ++ [i]).getD e.2 0))) name i
        = dset (L.serials.map (fun e => (e.1, (l ++ [i]).getD e.2 0))) name ((l ++ [i]).getD L.shapes.length 0) from
          congrArg _ h2]
      exact dset_map L.serials (fun n => (l ++ [i]).getD n 0) name L.shapes.length
    · intro x hx
      simp only [Lay.addSer, List.length_append, List.length_singleton] at hx ⊢
      rcases mem_dset hx with rfl | hx
      · simp
      · have := c.serials_lt x hx; omega
    · simp only [Lay.addSer, c.build]
  · refine ⟨⟨a3, ⟨by rw [hnp], by rw [hnn], fun q _ => by rw [hprim]⟩⟩, hm, fun q _ => by rw [hprim], fun k _ _ => hbody k, fun k _ hkl => ?_⟩
    have h1 := hbody k
    have h2 := hnx k hkl
    dsimp only
    cases e1 : h'.node k
    cases e2 : w.heap.node k
    rw [e1, e2] at h1 h2
    dsimp only at h1 h2
    rw [h1, h2]

end Verif.Protocol
