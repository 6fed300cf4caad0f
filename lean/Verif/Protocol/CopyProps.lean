import Verif.Protocol.CopyOk
/-! C29: copies keep the layout. -/
namespace Verif.Protocol

open Verif.Wire Verif.Serial Verif.Registry

/-! ### Sizes -/

/-- The bytes a content takes. -/
def viewSize : View → Nat
  | .array _ cs => (cs.map (fun c => c.1.size)).sum
  | .fixed d => d.length
  | .prefixed k _ d => k.size + d.length

theorem size_view (h : Heap) (hok : HeapOk h) (k : Nat) (hs : Sound h k) : (h.node k).body.size = viewSize (view h k) := by
  unfold view
  unfold Sound at hs
  cases hb : (h.node k).body with
  | array a =>
    have ha := hok.arrays k a hb
    simp only [Body.size, viewSize, cells, ha.size, ha.fmt, List.map_map]
    rfl
  | fixed d => rfl
  | prefixed q =>
    rw [hb] at hs
    exact hs.size

theorem viewSize_array {v1 v2 : View} (o : ByteOrder) (f : List Kind) (h1 : viewShape v1 = .array o f) (h2 : viewShape v2 = .array o f) :
    viewSize v1 = viewSize v2 := by
  cases v1 <;> cases v2 <;> simp only [viewShape, Shape.array.injEq, reduceCtorEq] at h1 h2
  rename_i o1 c1 o2 c2
  have e1 : (c1.map (·.1)).map Kind.size = (c2.map (·.1)).map Kind.size := by rw [h1.2, h2.2]
  rw [List.map_map, List.map_map] at e1
  exact congrArg List.sum e1

theorem length_views {w : World} {p : Proto} {L : Lay} {l : List Nat} (c : Core w p L l) :
    w.heap.length p.arr = .ok ((l.map (view w.heap)).map viewSize).sum := by
  simp only [Heap.length, c.chain, Except.map]
  rw [List.map_map]
  congr 2
  exact List.map_congr_left (fun k hk => size_view _ c.ok k (c.sound k hk))

/-- The size of a chain of arrays follows from its layout. -/
theorem length_arrays {w : World} {p : Proto} {L : Lay} {l : List Nat} (c : Core w p L l)
    (ha : ∀ s ∈ L.shapes, ∃ o f, s = .array o f) :
    w.heap.length p.arr = .ok ((kindsOf L.shapes).map Kind.size).sum := by
  rw [length_views c, ← c.shapes]
  have ha' : ∀ k ∈ l, ∃ o f, shape w.heap k = .array o f := fun k hk => ha _ (by rw [← c.shapes]; exact List.mem_map.mpr ⟨k, hk, rfl⟩)
  congr 1
  have : ∀ m : List Nat, (∀ k ∈ m, ∃ o f, shape w.heap k = .array o f) →
      ((m.map (view w.heap)).map viewSize).sum = ((kindsOf (m.map (shape w.heap))).map Kind.size).sum := by
    intro m hm
    induction m with
    | nil => rfl
    | cons x xs ih =>
      have h1 := ih (fun k hk => hm k (List.mem_cons_of_mem _ hk))
      have hk : kindsOf (shape w.heap x :: xs.map (shape w.heap)) = kindsOf [shape w.heap x] ++ kindsOf (xs.map (shape w.heap)) :=
        kindsOf_append [shape w.heap x] (xs.map (shape w.heap))
      simp only [List.map_cons, List.sum_cons, h1]
      rw [hk, List.map_append, List.sum_append]
      congr 1
      obtain ⟨o, f, hs⟩ := hm x List.mem_cons_self
      rw [hs]
      rw [shape_view _ c.ok] at hs
      cases hv : view w.heap x with
      | fixed d => rw [hv] at hs; cases hs
      | prefixed k o d => rw [hv] at hs; cases hs
      | array o' cs =>
        rw [hv] at hs
        simp only [viewShape, Shape.array.injEq] at hs
        simp [viewSize, kindsOf, ← hs.2, List.map_map, Function.comp_def]
  exact this l ha'

/-! ### What reading and setting fields look at -/

/-- The objects a protocol uses are those of its chain. -/
structure Within (w : World) (p : Proto) (l : List Nat) : Prop where
  regular : ∀ e ∈ p.regular, e.2 ∈ slots w.heap l
  serials : ∀ e ∈ p.serials, e.2 ∈ l
  groups : ∀ g ∈ p.groups, g.ref ∈ slots w.heap l
  names : ∀ e ∈ p.lookup, e.1 ∈ w.names

theorem Core.within {w : World} {p : Proto} {L : Lay} {l : List Nat} (c : Core w p L l)
    (hg : ∀ g ∈ p.groups, g.ref ∈ slots w.heap l) : Within w p l := by
  refine ⟨fun e he => ?_, fun e he => ?_, hg, fun e he => ?_⟩
  · rw [c.regular] at he
    obtain ⟨x, hx, rfl⟩ := List.mem_map.mp he
    have : x.2 < (slots w.heap l).length := by rw [c.count]; exact c.regular_lt x hx
    dsimp only
    rw [List.getD_eq_getElem _ _ this]
    exact List.getElem_mem _
  · rw [c.serials] at he
    obtain ⟨x, hx, rfl⟩ := List.mem_map.mp he
    exact c.getD_mem _ (c.serials_lt x hx)
  · rw [c.lookup] at he
    exact c.names e he

theorem Rep.within {w : World} {p : Proto} {L : Lay} {l : List Nat} (r : Rep w p L l) : Within w p l := by
  refine r.core.within (fun g hg => ?_)
  rw [r.groups.groups] at hg
  obtain ⟨e, he, rfl⟩ := List.mem_map.mp hg
  have : e.1 < (slots w.heap l).length := by rw [r.core.count]; exact r.lay.groups_lt e he
  dsimp only
  rw [List.getD_eq_getElem _ _ this]
  exact List.getElem_mem _

theorem findBits_mem {w : World} {p : Proto} {n : String} {g : BitGroup} {f : Bits.Field} (h : p.findBits w n = .ok (g, f)) :
    g ∈ p.groups := by
  unfold Proto.findBits at h
  split at h
  · cases hl : dget p.lookup n with
    | none => rw [hl] at h; cases h
    | some i =>
      rw [hl] at h
      dsimp only at h
      cases hg : p.groups[i]? with
      | none => rw [hg] at h; cases h
      | some g' =>
        rw [hg] at h
        dsimp only at h
        cases hf : dget g'.grp.fields n with
        | none => rw [hf] at h; cases h
        | some f' =>
          rw [hf] at h
          cases h
          exact List.mem_of_getElem? hg
  · cases h

/-- Changes elsewhere are not seen. -/
theorem Within.reads {w w' : World} {p : Proto} {l : List Nat} (wi : Within w p l) (hnames : ∀ n ∈ w.names, n ∈ w'.names)
    (hn : ∀ k ∈ l, w'.heap.node k = w.heap.node k) (hp : ∀ q ∈ slots w.heap l, w'.heap.prim q = w.heap.prim q) (name : String) :
    p.getItem w' name = p.getItem w name ∧ ∀ res, p.value w' name res = p.value w name res := by
  have hfind : p.findBits w' name = p.findBits w name := by
    unfold Proto.findBits
    cases hl : dget p.lookup name with
    | none => dsimp only; simp only [ite_self]
    | some i =>
      have := wi.names _ (dget_mem hl)
      rw [if_pos this, if_pos (hnames _ this)]
  have hbits : ∀ res, p.getBits w' name res = p.getBits w name res := by
    intro res
    unfold Proto.getBits
    rw [hfind]
    cases hf : p.findBits w name with
    | error e => rfl
    | ok t =>
      obtain ⟨g, f⟩ := t
      dsimp only
      rw [hp _ (wi.groups g (findBits_mem hf))]
  have hval : ∀ res, p.value w' name res = p.value w name res := by
    intro res
    unfold Proto.value
    cases hd : dget p.regular name with
    | none => exact hbits res
    | some q =>
      dsimp only
      rw [hp _ (wi.regular _ (dget_mem hd))]
  refine ⟨?_, hval⟩
  unfold Proto.getItem
  cases hd : dget p.serials name with
  | none => exact hval true
  | some i =>
    have hi := wi.serials _ (dget_mem hd)
    dsimp only at hi ⊢
    unfold showNode
    rw [hn i hi]
    cases hb : (w.heap.node i).body with
    | fixed d => rfl
    | prefixed q => rfl
    | array a =>
      dsimp only
      congr 2
      refine List.map_congr_left (fun q hq => ?_)
      have : q ∈ slots w.heap l := List.mem_flatMap.mpr ⟨i, hi, by simp only [primsOf, hb]; exact hq⟩
      rw [hp q this]

/-- What setting a field may change. -/
structure Touch (w w' : World) (l : List Nat) : Prop where
  names : w'.names = w.names
  nodes : ∀ k, k ∉ l → w'.heap.node k = w.heap.node k
  prims : ∀ q, q ∉ slots w.heap l → w'.heap.prim q = w.heap.prim q
  slots : ∀ k, primsOf w'.heap k = primsOf w.heap k

theorem Touch.refl (w : World) (l : List Nat) : Touch w w l := ⟨rfl, fun _ _ => rfl, fun _ _ => rfl, fun _ => rfl⟩

theorem Touch.slots_eq {w w' : World} {l : List Nat} (t : Touch w w' l) : Protocol.slots w'.heap l = Protocol.slots w.heap l :=
  flatMap_congr' l (fun k _ => t.slots k)

theorem Touch.trans {a b c : World} {l : List Nat} (h1 : Touch a b l) (h2 : Touch b c l) : Touch a c l :=
  ⟨h2.names.trans h1.names, fun k hk => (h2.nodes k hk).trans (h1.nodes k hk),
    fun q hq => (h2.prims q (by rw [h1.slots_eq]; exact hq)).trans (h1.prims q hq), fun k => (h2.slots k).trans (h1.slots k)⟩

theorem Touch.within {w w' : World} {p : Proto} {l : List Nat} (t : Touch w w' l) (wi : Within w p l) : Within w' p l :=
  ⟨by rw [t.slots_eq]; exact wi.regular, wi.serials, by rw [t.slots_eq]; exact wi.groups, by rw [t.names]; exact wi.names⟩

theorem touch_setPrim (w : World) (l : List Nat) (q : Nat) (v : Val) (hq : q ∈ slots w.heap l) :
    Touch w { w with heap := w.heap.setPrim q v } l :=
  ⟨rfl, fun _ _ => rfl, fun q' h => setPrim_ne _ _ _ _ (fun e => h (e ▸ hq)), fun _ => rfl⟩

theorem touch_update (w : World) (l : List Nat) (i : Nat) (d : Bytes) (hi : i ∈ l) :
    Touch w { w with heap := (w.heap.update i d).1 } l := by
  unfold Heap.update
  have hbody : ∀ b, (∀ a, b ≠ .array a) → primsOf w.heap i = [] → Touch w { w with heap := w.heap.setBody i b } l := by
    intro b hb h0
    refine ⟨rfl, fun k hk => setBody_ne _ _ _ _ (fun e => hk (e ▸ hi)), fun _ _ => rfl, fun k => ?_⟩
    by_cases hk : k = i
    · subst hk
      rw [h0]
      show primsOf (w.heap.setBody k b) k = []
      unfold primsOf
      rw [setBody_self]
      cases b with
      | array a => exact absurd rfl (hb a)
      | fixed d => rfl
      | prefixed q => rfl
    · show primsOf (w.heap.setBody i b) k = _
      unfold primsOf
      rw [setBody_ne _ _ _ _ hk]
  cases hb : (w.heap.node i).body with
  | fixed d' => exact hbody _ (fun a h => by cases h) (by simp [primsOf, hb])
  | prefixed q => exact hbody _ (fun a h => by cases h) (by simp [primsOf, hb])
  | array a =>
    dsimp only
    cases hu : unpack a.order a.fmt d with
    | error e => exact Touch.refl w l
    | ok vs =>
      obtain ⟨f1, -, -, -, f5⟩ := setAll_frame a.prims vs w.heap
      refine ⟨rfl, fun k _ => by dsimp only; rw [f1], fun q hq => f5 q (fun hm => hq ?_), fun k => ?_⟩
      · exact List.mem_flatMap.mpr ⟨i, hi, by simp only [primsOf, hb]; exact hm⟩
      · dsimp only [primsOf]; rw [f1]

theorem setItem_touch (env : Env) {w : World} {p : Proto} {l : List Nat} (wi : Within w p l) (name : String) (v : PVal) :
    Touch w (p.setItem env w name v).1 l := by
  unfold Proto.setItem
  cases hr : dget p.regular name with
  | some q =>
    have hq := wi.regular _ (dget_mem hr)
    cases v with
    | val x => exact touch_setPrim w l q x hq
    | cells c => exact Touch.refl w l
    | str s =>
      dsimp only
      cases dget p.enumFields name with
      | none => exact Touch.refl w l
      | some e =>
        dsimp only
        cases getInt env.parseInt e.map (.name s) with
        | error x => exact Touch.refl w l
        | ok i => exact touch_setPrim w l q _ hq
  | none =>
    have hbits : Touch w (p.setBits env w name v).1 l := by
      unfold Proto.setBits
      cases hf : p.findBits w name with
      | error e => exact Touch.refl w l
      | ok t =>
        obtain ⟨g, f⟩ := t
        dsimp only
        cases bitsArg env p name v with
        | error e => exact Touch.refl w l
        | ok x => exact touch_setPrim w l _ _ (wi.groups g (findBits_mem hf))
    dsimp only
    cases hs : dget p.serials name with
    | none => exact hbits
    | some i =>
      have hi := wi.serials _ (dget_mem hs)
      cases v with
      | val x => exact hbits
      | cells c => exact hbits
      | str s => exact touch_update w l i _ hi

theorem sets_touch (env : Env) (s : List (String × PVal)) {w : World} {p : Proto} {l : List Nat} (wi : Within w p l) :
    Touch w (p.sets env w s) l := by
  induction s generalizing w with
  | nil => exact Touch.refl w l
  | cons x rest ih =>
    have t := setItem_touch env wi x.1 x.2
    exact t.trans (ih (t.within wi))

/-- Setting fields of one protocol is not seen through another one that shares nothing with it. -/
theorem sets_apart (env : Env) {w : World} {p q : Proto} {l l' : List Nat} (wp : Within w p l) (wq : Within w q l')
    (hl : ∀ k ∈ l, k ∉ l') (hs : ∀ x ∈ slots w.heap l, x ∉ slots w.heap l') (s : List (String × PVal)) (name : String) :
    p.getItem (q.sets env w s) name = p.getItem w name ∧ ∀ res, p.value (q.sets env w s) name res = p.value w name res := by
  have t := sets_touch env s wq
  exact wp.reads (by rw [t.names]; exact fun _ h => h) (fun k hk => t.nodes k (hl k hk)) (fun x hx => t.prims x (hs x hx)) name

/-! ### The property -/

/-- The groups of bit-fields a list of building steps adds were built by a user, without the steps
that leave a group whose own export describes another one (C15). -/
def PlainGroups (env : Env) (ops : List BOp) : Prop :=
  ∀ g, BOp.bits g ∈ ops → ∃ k bops, Bits.Spec.Plain env.validName k bops ∧ g = (Bits.after env.validName k bops).g

theorem PlainGroups.solid {env : Env} {ops : List BOp} (h : PlainGroups env ops) :
    ∀ op ∈ ops, op.Solid env.validName := by
  intro op hop
  cases op with
  | field name kind enum len => trivial
  | serial n s => trivial
  | bits g =>
    obtain ⟨k, bops, h1, rfl⟩ := h g hop
    exact ⟨(Bits.sound_after env.validName k bops h1).solid, (Bits.tidy_after env.validName k bops h1).fields⟩

/-- C29. A protocol built by any steps (groups as in C15, no serializable named twice, nothing but
serializables behind an array serializable), its fields then set in any way: copying it succeeds.
The copy has identifier 1, the same names in the same order, the same byte order and the same wire size; what
either of the two writes the other one reads, with the same values for every name. Copying leaves the
original as it was, and from then on setting fields of one is never seen through the other.
Missing: the copy of a copy (`C29_second_copy_fails`) and layouts outside the conditions
(`C29_repeated_serializable_fails`, `C29_array_doubled_fails`). -/
theorem C29_copy_partial (env : Env) (hv : env.validName "" = false) (ops : List BOp) (hops : ∀ op ∈ ops, op.Ok)
    (hpl : PlainGroups env ops) (hng : NoGrow ops) (hnd : ((serialsOf ops).map (·.1)).Nodup)
    (o : ByteOrder) (ho : o ≠ .native) (id : Int) (w0 : World) (ok : HeapOk w0.heap) (v : World) (p : Proto)
    (b : (Proto.new w0 o id).2.steps env (Proto.new w0 o id).1 ops = .ok (v, p))
    (s : List (String × PVal)) (f : ∀ e ∈ s, (Lay.steps env o ops).Fits e.1 e.2) :
    ∃ w' c, p.copy env (p.sets env v s) = (w', .ok c)
      ∧ c.order = p.order ∧ c.id = 1
      ∧ c.regular.map (·.1) = p.regular.map (·.1) ∧ c.serials.map (·.1) = p.serials.map (·.1)
      ∧ (∀ n, n ∈ c.lookup.map (·.1) ↔ n ∈ p.lookup.map (·.1))
      ∧ (∃ n, (p.sets env v s).heap.length p.arr = .ok n ∧ w'.heap.length p.arr = .ok n ∧ w'.heap.length c.arr = .ok n)
      ∧ (∃ bs, w'.heap.toStream p.arr = .ok (bs, bs.length) ∧ ∀ rest, ∃ h',
          w'.heap.fromStream c.arr (bs ++ rest) = (h', .ok (bs.length, rest))
          ∧ ∀ name, c.getItem { w' with heap := h' } name = p.getItem w' name
            ∧ ∀ res, c.value { w' with heap := h' } name res = p.value w' name res)
      ∧ (∃ bs, w'.heap.toStream c.arr = .ok (bs, bs.length) ∧ ∀ rest, ∃ h',
          w'.heap.fromStream p.arr (bs ++ rest) = (h', .ok (bs.length, rest))
          ∧ ∀ name, p.getItem { w' with heap := h' } name = c.getItem w' name
            ∧ ∀ res, p.value { w' with heap := h' } name res = c.value w' name res)
      ∧ (∀ name, p.getItem w' name = p.getItem (p.sets env v s) name
          ∧ ∀ res, p.value w' name res = p.value (p.sets env v s) name res)
      ∧ (∀ t name, p.getItem (c.sets env w' t) name = p.getItem w' name
          ∧ ∀ res, p.value (c.sets env w' t) name res = p.value w' name res)
      ∧ (∀ t name, c.getItem (p.sets env w' t) name = c.getItem w' name
          ∧ ∀ res, c.value (p.sets env w' t) name res = c.value w' name res) := by
  obtain ⟨l, r0, -⟩ := rep_steps env (rep_new w0 ok o ho id) ops hops v p b
  have r := r0.sets env s f
  have hkn : ∀ op ∈ ops, op.Known env (p.sets env v s).names := by
    rw [sets_names]
    exact (steps_known env ops _ _ _ _ b).1
  generalize p.sets env v s = w at *
  have hlay : List.foldl (Lay.step env) (Lay.new o) ops = Lay.steps env o ops := rfl
  rw [hlay] at r
  obtain ⟨w', c, l', L', h1, h2, h3, h4, h5, h6, h7, h8, h11, h9, h10⟩ := copy_ok env hv o ops r hkn hops hpl.solid hng hnd
  obtain ⟨-, hlt⟩ := chain_lt _ r.core.ok _ r.core.lt _ r.core.chain
  have hsl : ∀ q ∈ slots w.heap l, q < w.heap.np := slots_lt w.heap r.core.ok l
  have wp : Within w' p l := h3.within
  have wc : Within w' c l' := h2.c2.within h9
  have apart1 : ∀ k ∈ l, k ∉ l' := fun k hk hk' => by
    have e1 := hlt k hk
    have e2 := h6 k hk'
    omega
  have apart2 : ∀ x ∈ slots w'.heap l, x ∉ slots w'.heap l' := fun x hx hx' => by
    rw [h8] at hx
    have e1 := hsl x hx
    have e2 := h7 x hx'
    omega
  have hview : l.map (view w'.heap) = l.map (view w.heap) := by
    refine List.map_congr_left (fun k hk => ?_)
    unfold view
    rw [h5.nodes k (hlt k hk)]
    cases hb : (w.heap.node k).body with
    | fixed d => rfl
    | prefixed q => rfl
    | array a =>
      dsimp only
      congr 1
      refine List.map_congr_left (fun q hq => ?_)
      rw [h5.prims q ((r.core.ok.arrays k a hb).refs q hq)]
  have hlen : ∀ {u : World} {x : Proto} {M : Lay} {m : List Nat}, Core u x M m →
      u.heap.length x.arr = .ok ((m.map (view u.heap)).map viewSize).sum := fun c => length_views c
  have hsame : (l'.map (view w'.heap)).map viewSize = (l.map (view w.heap)).map viewSize := by
    apply List.ext_getElem
    · simp only [List.length_map]
      rw [h2.c2.chain_len, r.core.chain_len, h2.alike.shapes]
    · intro j hj1 hj2
      simp only [List.length_map] at hj1 hj2
      simp only [List.getElem_map]
      have hjs : j < (Lay.steps env o ops).shapes.length := by rw [← r.core.chain_len]; exact hj2
      have g1 : l'[j] = l'.getD j 0 := (List.getD_eq_getElem _ _ hj1).symm
      have g2 : l[j] = l.getD j 0 := (List.getD_eq_getElem _ _ hj2).symm
      have s1 := r.core.shape_at j hjs
      have s2 := h2.c2.shape_at j (by rw [← h2.alike.shapes]; exact hjs)
      rw [← h2.alike.shapes] at s2
      rw [g1, g2]
      by_cases harr : ∃ o' fmt, shape w.heap (l.getD j 0) = .array o' fmt
      · obtain ⟨o', fmt, ha⟩ := harr
        refine viewSize_array o' fmt ?_ ?_
        · rw [s1] at s2
          rw [← shape_view _ h2.c2.ok, ← Option.some.inj s2, ha]
        · rw [← shape_view _ r.core.ok, ha]
      · rw [h10 j _ s1 (fun o' fmt e => harr ⟨o', fmt, e⟩)]
  refine ⟨w', c, h1, ?_, ?_, ?_, ?_, ?_, ⟨_, hlen r.core, ?_, ?_⟩, ?_, ?_, ?_, ?_, ?_⟩
  · rw [h2.c2.order, r.core.order, h2.alike.order]
  · exact h4
  · rw [h2.c2.regular, r.core.regular, List.map_map, List.map_map, h2.alike.regular]
    rfl
  · rw [h2.c2.serials, r.core.serials, List.map_map, List.map_map, h2.alike.serials]
    rfl
  · intro n
    have e := h11 n
    rw [← dget_isSome, ← dget_isSome] at e
    have key : ∀ d : List (String × Nat), n ∈ d.map (·.1) ↔ d.any (·.1 == n) = true := fun d => by simp [List.any_eq_true]
    rw [key, key, e]
  · rw [hlen h2.c1, hview]
  · rw [hlen h2.c2, hsame]
  · obtain ⟨bs, e1, -, e3⟩ := h2.round_trip
    exact ⟨bs, e1, e3⟩
  · obtain ⟨bs, e1, -, e3⟩ := h2.symm.round_trip
    exact ⟨bs, e1, e3⟩
  · intro name
    exact r.within.reads h5.names (fun k hk => h5.nodes k (hlt k hk)) (fun q hq => h5.prims q (hsl q hq)) name
  · intro t name
    exact sets_apart env wp wc apart1 apart2 t name
  · intro t name
    exact sets_apart env wc wp (fun k hk hk' => apart1 k hk' hk) (fun x hx hx' => apart2 x hx' hx) t name

end Verif.Protocol
