import Verif.Protocol.Rep
/-! Building a protocol gives an instance of the layout its steps describe. -/
namespace Verif.Protocol

open Verif.Wire Verif.Serial Verif.Registry

theorem newPrims_spec (ks : List Kind) (h : Heap) (hok : HeapOk h) :
    Good h (newPrims h ks).1 ∧ (newPrims h ks).2.map (fun q => ((newPrims h ks).1.prim q).kind) = ks
    ∧ (∀ q ∈ (newPrims h ks).2, h.np ≤ q ∧ q < (newPrims h ks).1.np) ∧ (newPrims h ks).2.Nodup
    ∧ (∀ q, q < h.np → (newPrims h ks).1.prim q = h.prim q)
    ∧ (newPrims h ks).1.node = h.node ∧ (newPrims h ks).1.nn = h.nn := by
  induction ks generalizing h with
  | nil => exact ⟨⟨hok, Le.refl h⟩, rfl, fun q hq => (by cases hq), .nil, fun _ _ => rfl, rfl, rfl⟩
  | cons k rest ih =>
    have hg := good_newPrim h hok k (zeroVal k) (zeroVal_kind k)
    obtain ⟨i1, i2, i3, i4, i5, i6, i7⟩ := ih _ hg.1
    have e : (newPrims h (k :: rest)).1 = (newPrims (h.newPrim k (zeroVal k)).1 rest).1 := rfl
    have e2 : (newPrims h (k :: rest)).2 = h.np :: (newPrims (h.newPrim k (zeroVal k)).1 rest).2 := rfl
    have hnp : (h.newPrim k (zeroVal k)).1.np = h.np + 1 := rfl
    rw [e, e2]
    refine ⟨hg.trans i1, ?_, ?_, ?_, ?_, ?_, ?_⟩
    · rw [List.map_cons, i2]
      congr 1
      rw [i1.2.kind h.np (by rw [hnp]; omega)]
      simp [Heap.newPrim]
    · intro q hq
      have hle := i1.2.np
      rw [hnp] at hle
      rcases List.mem_cons.mp hq with rfl | hq
      · exact ⟨Nat.le_refl _, by omega⟩
      · have := i3 q hq
        rw [hnp] at this
        exact ⟨by omega, this.2⟩
    · refine List.nodup_cons.mpr ⟨fun hm => ?_, i4⟩
      have := (i3 _ hm).1
      rw [hnp] at this; omega
    · intro q hq
      rw [i5 q (by rw [hnp]; omega)]
      simp only [Heap.newPrim]
      rw [if_neg (by omega)]
    · rw [i6]; rfl
    · rw [i7]; rfl

/-- Chains read by the same side do not mix orders that `struct` pads. -/
def SerSpec.Ok : SerSpec → Prop
  | .array o _ => o ≠ .native
  | _ => True

theorem make_ok (h : Heap) (hok : HeapOk h) (s : SerSpec) (hs : s.Ok) (h' : Heap) (i : Nat)
    (hm : s.make h = (h', .ok i)) :
    Good h h' ∧ (∀ k, k < h.nn → h'.node k = h.node k) ∧ h.nn ≤ i ∧ i < h'.nn ∧ (h'.node i).next = none
    ∧ Sound h' i ∧ shape h' i = s.shape ∧ (primsOf h' i).Nodup ∧ (∀ q ∈ primsOf h' i, h.np ≤ q)
    ∧ (∀ q, q < h.np → h'.prim q = h.prim q) := by
  cases s with
  | fixed d =>
    cases hm
    refine ⟨good_newNode h hok _ (fun a ha => by cases ha), fun k hk => newNode_ne h _ k (by omega),
      Nat.le_refl _, Nat.lt_succ_self _, congrArg Node.next (newNode_self h _), ?_, ?_, ?_, ?_, fun _ _ => rfl⟩
    all_goals simp [Sound, shape, SerSpec.shape, primsOf]
  | prefixed k o =>
    simp only [SerSpec.make, Heap.newPrefixed] at hm
    split at hm
    · cases hm
    · rename_i hsg
      cases hm
      refine ⟨good_newNode h hok _ (fun a ha => by cases ha), fun k hk => newNode_ne h _ k (by omega),
        Nat.le_refl _, by simp [Heap.newNode], ?_, ?_, ?_, ?_, ?_, fun _ _ => rfl⟩
      · exact congrArg Node.next (newNode_self h _)
      · unfold Sound
        rw [show ∀ b, (h.newNode b).1.node (h.newNode b).2 = ⟨b, none⟩ from newNode_self h]
        dsimp only
        have h0 : wrap k 0 = 0 := by cases k <;> decide
        rw [h0]
        exact ⟨by simpa using hsg, rfl, by show packable k.size k.signed 0 = true; cases k <;> decide, rfl⟩
      · simp [shape, SerSpec.shape, Heap.newNode]
      · simp [primsOf, Heap.newNode]
      · simp [primsOf, Heap.newNode]
  | array o ks =>
    simp only [SerSpec.make] at hm
    obtain ⟨i1, i2, i3, i4, i5, i6, i7⟩ := newPrims_spec ks h hok
    generalize newPrims h ks = c at *
    obtain ⟨h1, rs⟩ := c
    dsimp only at *
    cases hm
    have hr : ∀ r ∈ rs, r < h1.np := fun r hr => (i3 r hr).2
    have hg := good_newArray h1 i1.1 o rs hr
    obtain ⟨a1, a2, a3, a4, a5⟩ := addAll_ok h1 rs _ (ArrOk.empty h1 o) hr
    have hself : ((h1.newArray o rs).1.node (h1.newArray o rs).2).body = .array (Arr.addAll h1 (Arr.empty o) rs) := by
      exact congrArg Node.body (newNode_self h1 _)
    refine ⟨i1.trans hg, fun k hk => ?_, Nat.le_of_eq i7.symm, by simp [Heap.newArray, Heap.newNode], ?_, ?_, ?_, ?_, ?_, ?_⟩
    · rw [← i6]; exact newNode_ne h1 _ k (by omega)
    · exact congrArg Node.next (newNode_self h1 _)
    · simp only [Sound, hself, a3]; exact hs
    · simp only [shape, hself, a3, SerSpec.shape, a1.fmt, a2]
      simp only [Arr.empty, List.nil_append, i2]
    · simp only [primsOf, hself, a2]; exact i4
    · simp only [primsOf, hself, a2]; exact fun q hq => (i3 q hq).1
    · exact i5

/-- Layouts in which every name has primitives of its own. -/
structure LayOk (L : Lay) : Prop where
  regular_lt : ∀ e ∈ L.regular, e.2 < L.count
  groups_lt : ∀ e ∈ L.groups, e.1 < L.count
  serials_lt : ∀ e ∈ L.serials, e.2 < L.shapes.length
  regular : ∀ a ∈ L.regular, ∀ b ∈ L.regular, a.2 = b.2 → a.1 = b.1
  serials : ∀ a ∈ L.serials, ∀ b ∈ L.serials, a.2 = b.2 → a.1 = b.1
  groups : (L.groups.map (·.1)).Nodup
  apart : ∀ a ∈ L.regular, ∀ b ∈ L.groups, a.2 ≠ b.1
  inside : ∀ a ∈ L.groups, ∀ n f, (n, f) ∈ a.2.fields → f.width = 0 ∨ f.index + f.width ≤ a.2.kind.bits
  disjoint : ∀ a ∈ L.groups, ∀ n f m f', dget a.2.fields n = some f → dget a.2.fields m = some f' → n ≠ m →
    ∀ j, ¬ (Bits.Spec.Covers f.index f.width j ∧ Bits.Spec.Covers f'.index f'.width j)

theorem layOk_new (o : ByteOrder) : LayOk (Lay.new o) := by
  refine ⟨?_, ?_, ?_, ?_, ?_, ?_, ?_, ?_, ?_⟩ <;> simp [Lay.new]

/-- The steps covered: no native alignment in arrays, bit fields that do not overlap (as every
group built through the interface, see `groupOk_after`). -/
def BOp.Ok : BOp → Prop
  | .serial _ s => s.Ok
  | .bits g =>
    (∀ n f, (n, f) ∈ g.fields → f.width = 0 ∨ f.index + f.width ≤ g.kind.bits)
    ∧ ∀ n f m f', dget g.fields n = some f → dget g.fields m = some f' → n ≠ m →
      ∀ j, ¬ (Bits.Spec.Covers f.index f.width j ∧ Bits.Spec.Covers f'.index f'.width j)
  | .field .. => True

theorem layOk_addField (env : Env) (L : Lay) (ok : LayOk L) (name : String) (k : Kind) (enum : Option (Key Int))
    (len : Option Nat) (track : Bool) : LayOk (L.addField env name k enum len track) := by
  have hc : (L.addField env name k enum len track).count = L.count + (len.getD 1 - 1 + 1) := by
    simp [Lay.count, Lay.addField, kindsOf_addShape]
  refine ⟨?_, ?_, ?_, ?_, ok.serials, ok.groups, ?_, ok.inside, ok.disjoint⟩
  · intro e he
    rw [hc]
    rcases mem_dset he with rfl | he
    · dsimp only; omega
    · have := ok.regular_lt e he; omega
  · intro e he; rw [hc]; have := ok.groups_lt e he; omega
  · intro e he
    exact Nat.lt_of_lt_of_le (ok.serials_lt e he) (addShape_length _ _ _)
  · intro a ha b hb hab
    rcases mem_dset ha with rfl | ha <;> rcases mem_dset hb with rfl | hb
    · rfl
    · exact absurd (ok.regular_lt b hb) (by dsimp only at hab; omega)
    · exact absurd (ok.regular_lt a ha) (by dsimp only at hab; omega)
    · exact ok.regular a ha b hb hab
  · intro a ha b hb
    rcases mem_dset ha with rfl | ha
    · have := ok.groups_lt b hb; dsimp only; omega
    · exact ok.apart a ha b hb

theorem layOk_addBits (env : Env) (L : Lay) (ok : LayOk L) (g : Bits.Group) (hg : (BOp.bits g).Ok) (track : Bool) :
    LayOk (L.addBits env g track) := by
  have hc : (L.addBits env g track).count = L.count + 1 := by
    simp [Lay.count, Lay.addBits, kindsOf_addShape]
  refine ⟨?_, ?_, ?_, ok.regular, ok.serials, ?_, ?_, ?_, ?_⟩
  · intro e he; rw [hc]; have := ok.regular_lt e he; omega
  · intro e he
    rw [hc]
    rcases List.mem_append.mp he with he | he
    · have := ok.groups_lt e he; omega
    · rw [List.mem_singleton.mp he]; dsimp only; omega
  · intro e he
    exact Nat.lt_of_lt_of_le (ok.serials_lt e he) (addShape_length _ _ _)
  · simp only [Lay.addBits, List.map_append, List.map_cons, List.map_nil]
    refine List.nodup_append.mpr ⟨ok.groups, by simp, fun a ha b hb hab => ?_⟩
    obtain ⟨e, he, rfl⟩ := List.mem_map.mp ha
    rw [List.mem_singleton.mp hb] at hab
    have := ok.groups_lt e he
    omega
  · intro a ha b hb
    rcases List.mem_append.mp hb with hb | hb
    · exact ok.apart a ha b hb
    · rw [List.mem_singleton.mp hb]
      have := ok.regular_lt a ha
      dsimp only; omega
  · intro a ha
    rcases List.mem_append.mp ha with ha | ha
    · exact ok.inside a ha
    · rw [List.mem_singleton.mp ha]; exact hg.1
  · intro a ha
    rcases List.mem_append.mp ha with ha | ha
    · exact ok.disjoint a ha
    · rw [List.mem_singleton.mp ha]; exact hg.2

theorem layOk_addSer (L : Lay) (ok : LayOk L) (name : String) (s : Shape) : LayOk (L.addSer name s) := by
  have hc : L.count ≤ (L.addSer name s).count := by
    simp [Lay.count, Lay.addSer, kindsOf_append]
  refine ⟨fun e he => Nat.lt_of_lt_of_le (ok.regular_lt e he) hc, fun e he => Nat.lt_of_lt_of_le (ok.groups_lt e he) hc,
    ?_, ok.regular, ?_, ok.groups, ok.apart, ok.inside, ok.disjoint⟩
  · intro e he
    simp only [Lay.addSer, List.length_append, List.length_singleton] at he ⊢
    rcases mem_dset he with rfl | he
    · dsimp only; omega
    · have := ok.serials_lt e he; omega
  · intro a ha b hb hab
    rcases mem_dset ha with rfl | ha <;> rcases mem_dset hb with rfl | hb
    · rfl
    · exact absurd (ok.serials_lt b hb) (by dsimp only at hab; omega)
    · exact absurd (ok.serials_lt a ha) (by dsimp only at hab; omega)
    · exact ok.serials a ha b hb hab

/-- A protocol has a layout. -/
structure Rep (w : World) (p : Proto) (L : Lay) (l : List Nat) : Prop where
  core : Core w p L l
  groups : Groups w p L l
  lay : LayOk L

theorem rep_new (w : World) (hok : HeapOk w.heap) (o : ByteOrder) (ho : o ≠ .native) (id : Int) :
    Rep (Proto.new w o id).1 (Proto.new w o id).2 (Lay.new o) [w.heap.nn] := by
  have hg := good_newArray w.heap hok o [] (fun q hq => by cases hq)
  have hself : (w.heap.newArray o []).1.node w.heap.nn = ⟨.array (Arr.empty o), none⟩ := newNode_self w.heap _
  have hnn : (w.heap.newArray o []).1.nn = w.heap.nn + 1 := rfl
  refine ⟨⟨hg.1, ?_, ?_, ?_, ?_, ?_, rfl, ho, ⟨[], [], rfl⟩, rfl, ?_, rfl, ?_, rfl, rfl, rfl, rfl, ?_⟩, ⟨rfl, ?_⟩, layOk_new o⟩
  · show w.heap.nn < (w.heap.newArray o []).1.nn
    rw [hnn]; omega
  · refine (chain_iff _ _ _).mpr ⟨rfl, ?_, ?_⟩
    · show ((w.heap.newArray o []).1.node w.heap.nn).next = none
      rw [hself]
    · show 1 ≤ (w.heap.newArray o []).1.nn
      rw [hnn]; omega
  · show [shape (w.heap.newArray o []).1 w.heap.nn] = _
    simp only [shape, hself]; rfl
  · show (slots (w.heap.newArray o []).1 [w.heap.nn]).Nodup
    simp [slots, primsOf, hself, Arr.empty]
  · intro k hk
    rw [List.mem_singleton.mp hk]
    show Sound (w.heap.newArray o []).1 w.heap.nn
    simp only [Sound, hself]; exact ho
  · intro e he; cases he
  · intro e he; cases he
  · intro e he; cases he
  · intro e he; cases he

theorem rep_step (env : Env) {w : World} {p : Proto} {L : Lay} {l : List Nat} (r : Rep w p L l) (op : BOp)
    (hop : op.Ok) (w' : World) (p' : Proto) (h : p.step env w op = (w', p', .ok ())) :
    ∃ l', Rep w' p' (L.step env op) l' ∧ l <+: l' ∧ p'.arr = p.arr ∧ p'.id = p.id ∧ Kept w w' l := by
  obtain ⟨c, g, ok⟩ := r
  cases op with
  | field name kind enum len =>
    simp only [Proto.step] at h
    rcases hf : p.addField env w name kind enum len true with ⟨w2, p2, r | n⟩
    · rw [hf] at h; cases h
    · rw [hf] at h
      simp only [Except.map, Prod.mk.injEq] at h
      obtain ⟨rfl, rfl, -⟩ := h
      obtain ⟨w1, k, e1, e2⟩ := addField_inv env _ _ _ _ _ _ _ _ _ _ hf
      obtain ⟨w3, p3, n3, l', b, f1, f2, f3, f4, f5, f6, f7, f8, -⟩ :=
        addField_ok env c name kind enum len true w1 e1 k e2
      rw [hf] at f1
      simp only [Prod.mk.injEq] at f1
      obtain ⟨rfl, rfl, -⟩ := f1
      refine ⟨l', ⟨?_, ?_, ?_⟩, f2, f6, f7, f8⟩
      · simp only [Lay.step, e2, Option.getD_some]; exact f3
      · exact g.mono c f5 rfl b f4 _ (kindsOf_addShape _ _ _)
      · exact layOk_addField _ _ ok _ _ _ _ _
  | bits gr =>
    simp only [Proto.step, Proto.addBits] at h
    have hst : Spec.HasKind (.int gr.kind) (storeVal (.int gr.kind) (.int gr.raw)) :=
      (packable_iff gr.kind _).mp (wrap_packable gr.kind _)
    obtain ⟨c2, hs2, hr2, hr3, hnp, hpr, hold⟩ := newPrim_frame c (.int gr.kind) (.int gr.raw) hst
    have hent : ∃ w1 p1, Proto.enter env { w with heap := (w.heap.newPrim (.int gr.kind) (.int gr.raw)).1 }
        { p with groups := p.groups ++ [⟨w.heap.np, gr.finalize⟩] } p.groups.length gr.fields = (w1, p1, .ok ()) := by
      unfold Proto.addBitFields Proto.addGroup at h
      dsimp only at h
      rw [hr2] at h
      have : gr.finalize.fields = gr.fields := rfl
      rw [this] at h
      rcases he : Proto.enter env { w with heap := (w.heap.newPrim (.int gr.kind) (.int gr.raw)).1 }
        { p with groups := p.groups ++ [⟨w.heap.np, gr.finalize⟩] } p.groups.length gr.fields with ⟨w1, p1, e | ⟨⟩⟩
      · rw [he] at h; cases h
      · exact ⟨w1, p1, rfl⟩
    obtain ⟨w1, p1, hent⟩ := hent
    rw [hr2] at h
    obtain ⟨w3, p3, l', f1, f2, f3, f4, f5, f6, f7, f8, -⟩ := addBitFields_ok env c2 ⟨w.heap.np, gr⟩ true
      (by dsimp only; rw [hnp]; omega) (by dsimp only; rw [hs2]; exact hr3) (by dsimp only; rw [hpr]) p.groups.length rfl
      w1 p1 hent
    rw [f1] at h
    simp only [Prod.mk.injEq, and_true] at h
    obtain ⟨rfl, rfl⟩ := h
    have hlen : p.groups.length = L.groups.length := by rw [g.groups, List.length_map]
    have hL : ({ L.addBits env gr true with
          lookup := (enterAll env p.groups.length gr.fields (L.lookup, L.enumLookup)).1
          enumLookup := (enterAll env p.groups.length gr.fields (L.lookup, L.enumLookup)).2
          build := if true then L.build ++ [.bits p.groups.length] else L.build } : Lay) = L.step env (.bits gr) := by
      rw [hlen]; rfl
    rw [hL] at f3
    dsimp only at f4
    rw [hs2] at f4
    refine ⟨l', ⟨f3, ⟨?_, ?_⟩, layOk_addBits _ _ ok _ hop _⟩, f2, f6, f7, ?_⟩
    · have g1 := (g.mono c (w' := w3) (p' := p) (L' := { L.step env (.bits gr) with groups := L.groups }) rfl rfl _ f4 [.int gr.kind]
        (kindsOf_addShape _ _ _)).groups
      rw [f5, g1]
      simp only [Lay.step, Lay.addBits, List.map_append, List.map_cons, List.map_nil]
      congr 1
      rw [f4, ← c.count, List.getD_append_right _ _ _ _ (Nat.le_refl _), Nat.sub_self]
      rfl
    · have g1 := (g.mono c (w' := w3) (p' := p) (L' := { L.step env (.bits gr) with groups := L.groups }) rfl rfl _ f4 [.int gr.kind]
        (kindsOf_addShape _ _ _)).kinds
      intro e he
      rcases List.mem_append.mp he with he | he
      · exact g1 e he
      · rw [List.mem_singleton.mp he]
        simp only [Lay.step, Lay.addBits, kindsOf_addShape, Lay.count]
        rw [List.getElem?_append_right (Nat.le_refl _), Nat.sub_self]
        rfl
    · have hg1 := good_newPrim w.heap c.ok (.int gr.kind) (.int gr.raw) hst
      exact ⟨hg1.trans f8.good, f8.names, fun q hq => by
        rw [f8.prims q (by dsimp only; rw [hnp]; omega)]; exact hold q hq, f8.old, f8.frame⟩
  | serial name s =>
    simp only [Proto.step] at h
    rcases hm : s.make w.heap with ⟨h1, e | i⟩
    · rw [hm] at h; cases h
    · rw [hm] at h
      dsimp only at h
      obtain ⟨m1, m2, m3, m4, m5, m6, m7, m8, m9, m10⟩ := make_ok w.heap c.ok s hop h1 i hm
      obtain ⟨c1, hs1⟩ := c.frame h1 m1 m2
      rcases ha : p.addSerializable env { w with heap := h1 } name i none with ⟨w2, p2, e | n⟩
      · rw [ha] at h; cases h
      · rw [ha] at h
        simp only [Except.map, Prod.mk.injEq] at h
        obtain ⟨rfl, rfl, -⟩ := h
        have hreg : ∃ w1, World.register env { w with heap := h1 } name = (w1, .ok ()) := by
          unfold Proto.addSerializable at ha
          rcases hr : World.register env { w with heap := h1 } name with ⟨w1, e | ⟨⟩⟩
          · rw [hr] at ha; cases ha
          · exact ⟨w1, rfl⟩
        obtain ⟨w1, hreg⟩ := hreg
        obtain ⟨-, hlt⟩ := chain_lt _ c.ok _ c.lt _ c.chain
        obtain ⟨w3, p3, n3, f1, f2, f3, f4, f5, f6, f7, -⟩ := addSerializable_ok env c1 name i m4 m5
          (fun hi => by have := hlt i hi; omega) m6 m8
          (fun q hq hq' => by
            have h1 := m9 q hq
            dsimp only at hq'
            rw [hs1] at hq'
            have h2 := slots_lt _ c.ok l q hq'
            omega) w1 hreg
        rw [ha] at f1
        simp only [Prod.mk.injEq] at f1
        obtain ⟨rfl, rfl, -⟩ := f1
        dsimp only at f2 f3
        rw [m7] at f2
        rw [hs1] at f3
        refine ⟨l ++ [i], ⟨f2, ?_, layOk_addSer _ ok _ _⟩, List.prefix_append _ _, f5, f6, ?_⟩
        · exact g.mono c f4 rfl _ f3 _ (kindsOf_append _ _)
        · refine ⟨m1.trans f7.good, f7.names, fun q hq => ?_, fun k hk hna => ?_, fun k hk hkl => ?_⟩
          · rw [f7.prims q (Nat.lt_of_lt_of_le hq m1.2.np)]; exact m10 q hq
          · have hb := f7.old k hk
            dsimp only at hb
            rw [m2 k (hlt k hk)] at hb
            exact hb hna
          · rw [f7.frame k (Nat.lt_of_lt_of_le hk m1.2.nn) hkl]; exact m2 k hk

theorem rep_steps (env : Env) {w : World} {p : Proto} {L : Lay} {l : List Nat} (r : Rep w p L l) (ops : List BOp)
    (hops : ∀ op ∈ ops, op.Ok) (w' : World) (p' : Proto) (h : p.steps env w ops = .ok (w', p')) :
    ∃ l', Rep w' p' (ops.foldl (Lay.step env) L) l' ∧ p'.arr = p.arr ∧ p'.id = p.id := by
  induction ops generalizing w p L l with
  | nil => cases h; exact ⟨l, r, rfl, rfl⟩
  | cons op rest ih =>
    unfold Proto.steps at h
    rcases hs : p.step env w op with ⟨w1, p1, e | ⟨⟩⟩
    · rw [hs] at h; cases h
    · rw [hs] at h
      obtain ⟨l1, r1, -, a1, i1, -⟩ := rep_step env r op (hops op List.mem_cons_self) w1 p1 hs
      obtain ⟨l2, r2, a2, i2⟩ := ih r1 (fun o ho => hops o (List.mem_cons_of_mem _ ho)) h
      exact ⟨l2, r2, a2.trans a1, i2.trans i1⟩

end Verif.Protocol
