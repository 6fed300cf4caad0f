import Verif.Protocol.Twin
/-! C29: copying succeeds and gives a twin. -/
namespace Verif.Protocol

open Verif.Wire Verif.Serial Verif.Registry

theorem steps_groups_all (env : Env) (P : Bits.Group → Prop) (ops : List BOp) (L : Lay)
    (h : ∀ g, BOp.bits g ∈ ops → P g.finalize) (h0 : ∀ e ∈ L.groups, P e.2) :
    ∀ e ∈ (ops.foldl (Lay.step env) L).groups, P e.2 := by
  induction ops generalizing L with
  | nil => exact h0
  | cons op r ih =>
    rw [List.foldl_cons]
    refine ih _ (fun g hg => h g (List.mem_cons_of_mem _ hg)) ?_
    cases op with
    | field name kind enum len => exact h0
    | serial n s => exact h0
    | bits g =>
      intro e he
      rcases List.mem_append.mp he with he | he
      · exact h0 e he
      · rw [List.mem_singleton.mp he]
        exact h g List.mem_cons_self

theorem mem_groupsOf (ops : List BOp) (x : IntKind × List (String × Bits.Field)) (h : x ∈ groupsOf ops) :
    ∃ g, BOp.bits g ∈ ops ∧ x = (g.kind, g.fields) := by
  induction ops with
  | nil => cases h
  | cons op r ih =>
    have lift : (∃ g, BOp.bits g ∈ r ∧ x = (g.kind, g.fields)) → ∃ g, BOp.bits g ∈ op :: r ∧ x = (g.kind, g.fields) :=
      fun ⟨g, h1, h2⟩ => ⟨g, List.mem_cons_of_mem _ h1, h2⟩
    cases op with
    | field name kind enum len => exact lift (ih h)
    | serial n s => exact lift (ih h)
    | bits g =>
      rcases List.mem_cons.mp h with h | h
      · exact ⟨g, List.mem_cons_self, h⟩
      · exact lift (ih h)

theorem Core.getD_mem {w : World} {p : Proto} {L : Lay} {l : List Nat} (c : Core w p L l) (j : Nat) (hj : j < L.shapes.length) :
    l.getD j 0 ∈ l := by
  rw [List.getD_eq_getElem _ _ (by rw [c.chain_len]; exact hj)]
  exact List.getElem_mem _

theorem Core.shape_at {w : World} {p : Proto} {L : Lay} {l : List Nat} (c : Core w p L l) (j : Nat) (hj : j < L.shapes.length) :
    L.shapes[j]? = some (shape w.heap (l.getD j 0)) := by
  have hl : j < l.length := by rw [c.chain_len]; exact hj
  rw [← c.shapes, List.getElem?_map, List.getElem?_eq_getElem hl, List.getD_eq_getElem _ _ hl]
  rfl

/-- The tables of a protocol built by steps. -/
theorem steps_lookup (env : Env) (o : ByteOrder) (ops : List BOp) (n : String) :
    dget (Lay.steps env o ops).lookup n = lastWith n (groupsOf ops) := by
  have h := congrArg Prod.fst (steps_tables env ops (Lay.new o))
  dsimp only at h
  unfold Lay.steps
  rw [h, dget_enterGroups]
  cases lastWith n (groupsOf ops) with
  | none => rfl
  | some j => simp [Lay.new]

/-- Building from the groups and the serializables set aside, as a copy and a JSON import do. -/
theorem create_ok (env : Env) (o : ByteOrder) (ho : o ≠ .native) (id : Int) (ops : List BOp) (hops : ∀ op ∈ ops, op.Ok)
    (w : World) (hok : HeapOk w.heap) (n0 m0 : Nat) (hn0 : n0 ≤ w.heap.nn) (hm0 : m0 ≤ w.heap.np)
    (hkn : ∀ op ∈ ops, op.Known env w.names) (gs : List BitGroup) (ss : List (String × Nat))
    (hgs : gs.map (fun g => (g.grp.kind, g.grp.fields)) = groupsOf ops)
    (hss : ss.map (fun e => (e.1, shape w.heap e.2)) = serialsOf ops) (hnd : (ss.map (·.1)).Nodup)
    (hnodes : ∀ e ∈ ss, n0 ≤ e.2 ∧ e.2 < w.heap.nn ∧ (w.heap.node e.2).next = none ∧ Sound w.heap e.2)
    (hnn : (ss.map (·.2)).Nodup)
    (hrefs : ∀ g ∈ gs, m0 ≤ g.ref ∧ g.ref < w.heap.np ∧ (w.heap.prim g.ref).kind = .int g.grp.kind ∧ g.grp.finalized = true)
    (hprims : (slots w.heap (ss.map (·.2)) ++ gs.map (·.ref)).Nodup)
    (hms : ∀ q ∈ slots w.heap (ss.map (·.2)), m0 ≤ q) :
    ∃ w' p' l' L', Proto.create env w o id gs (itemsOf env 0 ops) ss = (w', .ok p') ∧ Core w' p' L' l'
      ∧ Alike L' (Lay.steps env o ops) ∧ p'.groups = gs ++ gs ∧ Matches (slots w'.heap l') (Lay.steps env o ops).groups gs
      ∧ (L'.lookup, L'.enumLookup) = enterGroups env gs.length (groupsOf ops) (enterGroups env 0 (groupsOf ops) ([], []))
      ∧ p'.id = id ∧ Past n0 w w' ∧ (∀ x ∈ l', n0 ≤ x) ∧ (∀ q ∈ slots w'.heap l', m0 ≤ q) ∧ p'.serials = ss := by
  have r0 := rep_new w hok o ho id
  have hg := good_newArray w.heap hok o [] (fun q hq => by cases hq)
  have hnode : ∀ k, k < w.heap.nn → (Proto.new w o id).1.heap.node k = w.heap.node k := fun k hk => newNode_ne w.heap _ k (by omega)
  have hprim : (Proto.new w o id).1.heap.prim = w.heap.prim := rfl
  have hnp : (Proto.new w o id).1.heap.np = w.heap.np := rfl
  have hnames : (Proto.new w o id).1.names = w.names := rfl
  have hnnn : (Proto.new w o id).1.heap.nn = w.heap.nn + 1 := rfl
  have hs0 : slots (Proto.new w o id).1.heap [w.heap.nn] = [] := by
    have hself : (w.heap.newArray o []).1.node w.heap.nn = ⟨.array (Arr.empty o), none⟩ := newNode_self w.heap _
    show slots (w.heap.newArray o []).1 [w.heap.nn] = []
    simp [slots, primsOf, hself, Arr.empty]
  have hpgrp : (Proto.new w o id).2.groups = [] := rfl
  have hpser : (Proto.new w o id).2.serials = [] := rfl
  have hpid : (Proto.new w o id).2.id = id := rfl
  have past0 : Past n0 w (Proto.new w o id).1 := by
    refine ⟨hg, fun _ h => h, fun k hk => hnode k (by omega), fun q _ => by rw [hprim], fun k hk _ => by rw [hnode k hk]⟩
  have hfields : ∀ g ∈ gs, ∃ gr, BOp.bits gr ∈ ops ∧ g.grp.fields = gr.fields := by
    intro g hgm
    have : (g.grp.kind, g.grp.fields) ∈ groupsOf ops := by
      rw [← hgs]; exact List.mem_map.mpr ⟨g, hgm, rfl⟩
    obtain ⟨gr, h1, h2⟩ := mem_groupsOf ops _ this
    exact ⟨gr, h1, (Prod.mk.inj h2).2⟩
  obtain ⟨p1, L1, a1, a2, a3, a4, a5, a6, a7, a8⟩ := addGroups_ok env gs r0.core
    (fun g hgm e he => by
      obtain ⟨gr, h1, h2⟩ := hfields g hgm
      rw [h2] at he
      rw [hnames]
      exact (hkn _ h1).1 e he)
    (fun g hgm e he => by
      obtain ⟨gr, h1, h2⟩ := hfields g hgm
      rw [h2] at he
      exact (hkn _ h1).2 e he)
    (fun g hgm => (hrefs g hgm).2.2.2)
  have hslots : slots (Proto.new w o id).1.heap (ss.map (·.2)) = slots w.heap (ss.map (·.2)) :=
    slots_same (fun e he => hnode e.2 (hnodes e he).2.1)
  have sp : Spare (Proto.new w o id).1 [w.heap.nn] ss gs := by
    refine ⟨fun e he => ?_, hnn, fun g hgm => ?_, ?_, ?_⟩
    · obtain ⟨h0, h1, h2, h3⟩ := hnodes e he
      refine ⟨by rw [hnnn]; omega, ?_, by rw [hnode _ h1]; exact h2, ?_⟩
      · rw [List.mem_singleton]; omega
      · unfold Sound at h3 ⊢
        rw [hnode _ h1]; exact h3
    · obtain ⟨h0, h1, h2, h3⟩ := hrefs g hgm
      exact ⟨h1, by rw [hprim]; exact h2, h3⟩
    · rw [hslots]; exact hprims
    · intro q _
      rw [hs0]; exact List.not_mem_nil
  rw [hpgrp, List.length_nil] at a5
  obtain ⟨w', p', l', L', b1, b2, b3, b4, b5, b6, b7, b8, b9, b10, b11, b12⟩ := replay_ok env n0 m0 ops (Lp := Lay.new o)
    (fin := []) (pend := gs) (ss := ss) a2 a3 (by rw [hnames]; exact hkn) hops (by rw [a4, hpgrp]; simp) rfl
    (fun e he => by cases he) hgs
    (by rw [← hss]; exact List.map_congr_left (fun e he => by simp only [shape, hnode e.2 (hnodes e he).2.1]))
    hnd sp (by rw [hnnn]; omega) (fun x hx => by rw [List.mem_singleton.mp hx]; exact hn0) (fun e he => (hnodes e he).1)
    (by rw [a8, hpser]; simp) (by rw [hnp]; exact hm0)
    (fun q hq => by
      rw [hs0, hslots, List.nil_append] at hq
      rcases List.mem_append.mp hq with h | h
      · exact hms q h
      · obtain ⟨g, hgm, rfl⟩ := List.mem_map.mp h
        exact (hrefs g hgm).1)
  rw [List.nil_append] at b4 b5 b6
  refine ⟨w', p', l', L', ?_, b2, b3, b4, b5, ?_, by rw [b8, a7, hpid], past0.trans b9, b10, b12, by rw [b11, a8, hpser]; rfl⟩
  · unfold Proto.create
    have hl0 : (Lay.new o).groups.length = 0 := rfl
    rw [hl0] at b1
    simp only [a1, b1, if_true]
  · rw [b6, a5, hgs]
    rfl

/-- The bit-fields of a protocol built by steps and of one built from the same steps with its groups
entered twice are the same. -/
theorem bits_agree (env : Env) (o : ByteOrder) (ops : List BOp) {w1 w2 : World} {p1 p2 : Proto} {l1 l2 : List Nat} {L2 : Lay}
    (r : Rep w1 p1 (Lay.steps env o ops) l1) (c2 : Core w2 p2 L2 l2) (gs : List BitGroup)
    (hg : p2.groups = gs ++ gs) (hm : Matches (slots w2.heap l2) (Lay.steps env o ops).groups gs)
    (ht : (L2.lookup, L2.enumLookup) = enterGroups env gs.length (groupsOf ops) (enterGroups env 0 (groupsOf ops) ([], []))) :
    (∀ n, (∃ e, p1.findBits w1 n = .error e ∧ p2.findBits w2 n = .error e)
      ∨ ∃ k g1 g2 f, k < (Lay.steps env o ops).count ∧ p1.findBits w1 n = .ok (⟨(slots w1.heap l1).getD k 0, g1⟩, f)
        ∧ p2.findBits w2 n = .ok (⟨(slots w2.heap l2).getD k 0, g2⟩, f) ∧ g1.kind = g2.kind)
      ∧ (∀ n, dget p1.enumLookup n = dget p2.enumLookup n) ∧ ∀ n, (dget p2.lookup n).isSome = (dget p1.lookup n).isSome := by
  have hlook : ∀ n, dget L2.lookup n = (lastWith n (groupsOf ops)).map (gs.length + ·) := by
    intro n
    have h := congrArg Prod.fst ht
    dsimp only at h
    rw [h, dget_enterGroups, dget_enterGroups]
    cases lastWith n (groupsOf ops) <;> rfl
  have hlen : gs.length = (Lay.steps env o ops).groups.length := by
    have := congrArg List.length hm
    simpa using this
  refine ⟨fun n => ?_, fun n => ?_, fun n => ?_⟩
  · have h1 := steps_lookup env o ops n
    have h2 := hlook n
    unfold Proto.findBits
    rw [r.core.lookup, c2.lookup, h1, h2]
    cases hl : lastWith n (groupsOf ops) with
    | none =>
      left
      refine ⟨.key, ?_, ?_⟩
      · dsimp only; split <;> rfl
      · dsimp only [Option.map_none]; split <;> rfl
    | some j =>
      rw [hl] at h1 h2
      rw [if_pos (r.core.names _ (dget_mem h1)), if_pos (c2.names _ (dget_mem h2))]
      have hj : j < (Lay.steps env o ops).groups.length := by
        have := lastWith_lt n _ j hl
        have hgl := congrArg List.length (steps_groups env ops (Lay.new o))
        simp only [List.length_map, List.length_append, Lay.new, List.length_nil, Nat.zero_add] at hgl
        unfold Lay.steps Lay.new
        omega
      have hjg : j < gs.length := by rw [hlen]; exact hj
      have e1 : p1.groups[j]? = some ⟨(slots w1.heap l1).getD ((Lay.steps env o ops).groups[j]).1 0, ((Lay.steps env o ops).groups[j]).2⟩ := by
        rw [r.groups.groups, List.getElem?_map, List.getElem?_eq_getElem hj]
        rfl
      have e2 : p2.groups[gs.length + j]? = some gs[j] := by
        rw [hg, List.getElem?_append_right (by omega), Nat.add_sub_cancel_left, List.getElem?_eq_getElem hjg]
      have e3 := congrArg (fun x => x[j]?) hm
      simp only [List.getElem?_map, List.getElem?_eq_getElem hj, List.getElem?_eq_getElem hjg, Option.map_some,
        Option.some.injEq, Prod.mk.injEq] at e3
      simp only [Option.map_some, e1, e2]
      rw [e3.2.2]
      cases hf : dget ((Lay.steps env o ops).groups[j]).2.fields n with
      | none => exact .inl ⟨.key, rfl, rfl⟩
      | some f =>
        refine .inr ⟨((Lay.steps env o ops).groups[j]).1, _, gs[j].grp, f, r.lay.groups_lt _ (List.getElem_mem _), rfl, ?_, e3.2.1.symm⟩
        dsimp only
        rw [← e3.1]
  · have h1 := congrArg Prod.snd (steps_tables env ops (Lay.new o))
    have h2 := congrArg Prod.snd ht
    dsimp only at h1 h2
    obtain ⟨c, hc⟩ := enum_enterGroups env (groupsOf ops) n
    rw [r.core.enumLookup, c2.enumLookup, h2, hc, hc]
    unfold Lay.steps
    rw [h1, hc]
    cases c <;> rfl
  · rw [r.core.lookup, c2.lookup, hlook, steps_lookup, Option.isSome_map]

theorem serials_nodup {L : Lay} {ops : List BOp} (s : SerInv L ops) : L.serials.map (·.1) = (serialsOf ops).map (·.1) := by
  have := congrArg (List.map (·.1)) s.shapes
  simpa [List.map_map, Function.comp_def] using this

/-- Copying a protocol. -/
theorem copy_ok (env : Env) (hv : env.validName "" = false) (o : ByteOrder) (ops : List BOp) {w : World} {p : Proto}
    {l : List Nat} (r : Rep w p (Lay.steps env o ops) l) (hkn : ∀ op ∈ ops, op.Known env w.names)
    (hops : ∀ op ∈ ops, op.Ok) (hsol : ∀ op ∈ ops, op.Solid env.validName) (hng : NoGrow ops)
    (hnd : ((serialsOf ops).map (·.1)).Nodup) :
    ∃ w' p' l' L', p.copy env w = (w', .ok p') ∧ Twin w' p (Lay.steps env o ops) l w' p' L' l'
      ∧ Rep w' p (Lay.steps env o ops) l ∧ p'.id = 1 ∧ Past w.heap.nn w w' ∧ (∀ x ∈ l', w.heap.nn ≤ x)
      ∧ (∀ q ∈ slots w'.heap l', w.heap.np ≤ q) ∧ slots w'.heap l = slots w.heap l
      ∧ (∀ n, (dget p'.lookup n).isSome = (dget p.lookup n).isSome)
      ∧ (∀ g ∈ p'.groups, g.ref ∈ slots w'.heap l')
      ∧ ∀ j s, (Lay.steps env o ops).shapes[j]? = some s → (∀ o f, s ≠ .array o f) →
        view w'.heap (l'.getD j 0) = view w.heap (l.getD j 0) := by
  have si := serInv_all env o ops hng hnd
  generalize hL : Lay.steps env o ops = L at *
  have c := r.core
  obtain ⟨-, hlt⟩ := chain_lt _ c.ok _ c.lt _ c.chain
  have hLs : L = ops.foldl (Lay.step env) (Lay.new o) := hL.symm
  have hLo : L.order = o := by
    rw [hLs]
    have : ∀ (ops : List BOp) (L : Lay), (ops.foldl (Lay.step env) L).order = L.order := by
      intro ops
      induction ops with
      | nil => intro L; rfl
      | cons op r ih =>
        intro L
        rw [List.foldl_cons, ih]
        cases op <;> rfl
    rw [this]; rfl
  have ho : o ≠ .native := hLo ▸ c.onat
  -- the groups
  have hgall : ∀ g ∈ p.groups, Bits.Solid env.validName g.grp.kind g.grp.byIndex
      ∧ g.grp.fields = Bits.fieldsOf g.grp.byIndex ∧ g.grp.finalized = true := by
    intro g hg
    rw [r.groups.groups] at hg
    obtain ⟨e, he, rfl⟩ := List.mem_map.mp hg
    have := steps_groups_all env (fun g => Bits.Solid env.validName g.kind g.byIndex
      ∧ g.fields = Bits.fieldsOf g.byIndex ∧ g.finalized = true) ops (Lay.new o)
      (fun g hm => ⟨(hsol _ hm).1, (hsol _ hm).2, rfl⟩) (fun e he => by cases he) e (by rw [← hLs]; exact he)
    exact this
  obtain ⟨h1, gs, g1, g2, g3, g4, g5, g6, g7⟩ := copyGroups_ok env hv p.groups w.heap c.ok hgall
  -- the serializables
  have hsn : ∀ e ∈ p.serials, e.2 < w.heap.nn ∧ Sound w.heap e.2 := by
    intro e he
    rw [c.serials] at he
    obtain ⟨x, hx, rfl⟩ := List.mem_map.mp he
    have hm := c.getD_mem x.2 (c.serials_lt x hx)
    exact ⟨hlt _ hm, c.sound _ hm⟩
  obtain ⟨s1, s2, s3, s4, s5, s6, s7, s8⟩ := copySerials_ok p.serials h1 g3
    (fun e he => Nat.lt_of_lt_of_le (hsn e he).1 g2.nn)
    (fun e he => by
      have := (hsn e he).2
      unfold Sound at this ⊢
      rw [g2.node _ (hsn e he).1]; exact this)
  generalize hcs : copySerials h1 p.serials = cs at *
  obtain ⟨h2, ss⟩ := cs
  dsimp only at s1 s2 s3 s4 s5 s6 s7 s8
  have ext : Ext w.heap h2 := g2.trans s1
  have hvw : ss.map (fun e => (e.1, view h2 e.2)) = p.serials.map (fun e => (e.1, view w.heap e.2)) := by
    rw [s3]
    exact List.map_congr_left (fun e he => by rw [view_ext c.ok g2 _ (hsn e he).1])
  have hkeys : ss.map (·.1) = (serialsOf ops).map (·.1) := by
    have e1 := congrArg (List.map (·.1)) hvw
    rw [List.map_map, List.map_map] at e1
    have e2 : p.serials.map (·.1) = L.serials.map (·.1) := by rw [c.serials, List.map_map]; rfl
    exact e1.trans (e2.trans (serials_nodup si))
  have hshapes : ss.map (fun e => (e.1, shape h2 e.2)) = serialsOf ops := by
    have e1 : ss.map (fun e => (e.1, shape h2 e.2)) = (ss.map (fun e => (e.1, view h2 e.2))).map (fun e => (e.1, viewShape e.2)) := by
      rw [List.map_map]
      exact List.map_congr_left (fun e _ => by simp only [Function.comp_apply, shape_view h2 s2])
    have e2 : p.serials.map (fun e => (e.1, shape w.heap e.2)) = (p.serials.map (fun e => (e.1, view w.heap e.2))).map
        (fun e => (e.1, viewShape e.2)) := by
      rw [List.map_map]
      exact List.map_congr_left (fun e _ => by simp only [Function.comp_apply, shape_view w.heap c.ok])
    rw [e1, hvw, ← e2, c.serials, List.map_map]
    have e3 : L.serials.map (fun e => (e.1, L.shapes[e.2]?)) = L.serials.map (fun e => (e.1, some (shape w.heap (l.getD e.2 0)))) :=
      List.map_congr_left (fun e he => by rw [c.shape_at _ (c.serials_lt e he)])
    have e4 := si.shapes
    rw [e3] at e4
    have e5 : List.map (fun e : String × Option Shape => (e.1, e.2.getD (.fixed 0)))
        (L.serials.map (fun e => (e.1, some (shape w.heap (l.getD e.2 0)))))
        = List.map (fun e : String × Option Shape => (e.1, e.2.getD (.fixed 0))) ((serialsOf ops).map (fun e => (e.1, some e.2))) := by
      rw [e4]
    rw [List.map_map, List.map_map] at e5
    have e6 : ∀ x : List (String × Shape), List.map ((fun e : String × Option Shape => (e.1, e.2.getD (.fixed 0)))
        ∘ fun e => (e.1, some e.2)) x = x := by
      intro x
      conv_rhs => rw [← List.map_id x]
      exact List.map_congr_left (fun e _ => rfl)
    rw [e6] at e5
    rw [← e5]
    rfl
  have hgs : gs.map (fun g => (g.grp.kind, g.grp.fields)) = groupsOf ops := by
    rw [g5, r.groups.groups, List.map_map]
    have := steps_groups env ops (Lay.new o)
    rw [← hLs] at this
    simpa [Lay.new, Function.comp_def] using this
  obtain ⟨w', p', l', L', b1, b2, b3, b4, b5, b6, b7, b8, b9, b10, b11⟩ := create_ok env o ho 1 ops hops { w with heap := h2 }
    s2 w.heap.nn w.heap.np ext.nn ext.np hkn gs ss hgs hshapes (by rw [hkeys]; exact hnd)
    (fun e he => by
      obtain ⟨j1, j2, j3, j4⟩ := s8 e he
      exact ⟨by rw [← g4]; exact j1, j2, j3, j4⟩) s5
    (fun g hg => by
      obtain ⟨j1, j2, j3, j4⟩ := g7 g hg
      exact ⟨j1, Nat.lt_of_lt_of_le j2 s1.np, by dsimp only; rw [s1.prim _ j2]; exact j3, j4⟩)
    (by
      refine List.nodup_append.mpr ⟨s6, g6, fun a ha b hb hab => ?_⟩
      obtain ⟨g, hg, rfl⟩ := List.mem_map.mp hb
      have h1 := s7 a ha
      have h2 := (g7 g hg).2.1
      omega)
    (fun q hq => Nat.le_trans g2.np (s7 q hq))
  rw [hL] at b3 b5
  have hgood : Good w.heap h2 := ⟨s2, ext.np, ext.nn, fun q hq => by rw [ext.prim q hq]⟩
  have past : Past w.heap.nn w w' :=
    Past.trans (b := { w with heap := h2 }) ⟨hgood, fun _ h => h, fun k hk => ext.node k hk, fun q hq => ext.prim q hq,
      fun k hk _ => by rw [ext.node k hk]⟩ b8
  obtain ⟨c', hsl⟩ := c.frame w'.heap past.good past.nodes
  have c'' : Core w' p L l := c'.names_mono rfl past.names
  have r' : Rep w' p L l := by
    refine ⟨c'', ⟨?_, r.groups.kinds⟩, r.lay⟩
    rw [hsl]; exact r.groups.groups
  have hb := bits_agree env o ops (l1 := l) (p1 := p) (w1 := w') (by rw [hL]; exact r') b2 gs b4 (by rw [hL]; exact b5) b6
  rw [hL] at hb
  refine ⟨w', p', l', L', ?_, ⟨c'', b2, b3.symm, fun n => (hb.1 n).imp_right (fun ⟨k, g1, g2, f, a, b, c, _⟩ => ⟨k, g1, g2, f, a, b, c⟩), hb.2.1⟩, r', b7, past, b9, b10, hsl, hb.2.2, ?_, ?_⟩
  · unfold Proto.copy
    rw [g1]
    dsimp only
    rw [hcs]
    dsimp only
    rw [c.order, hLo, c.build, hLs, steps_build env ops (Lay.new o)]
    exact b1
  · intro g hg
    have hg : g ∈ gs := by
      rw [b4] at hg
      rcases List.mem_append.mp hg with h | h <;> exact h
    have hm : (g.ref, g.grp.kind, g.grp.fields) ∈ gs.map (fun g => (g.ref, g.grp.kind, g.grp.fields)) :=
      List.mem_map.mpr ⟨g, hg, rfl⟩
    rw [b5] at hm
    obtain ⟨e, he, heq⟩ := List.mem_map.mp hm
    rw [← (Prod.mk.inj heq).1]
    have hlt : e.1 < (slots w'.heap l').length := by
      rw [b2.count, b3.count]; exact r.lay.groups_lt e he
    rw [List.getD_eq_getElem _ _ hlt]
    exact List.getElem_mem _
  · intro j s hj hna
    obtain ⟨n, hn⟩ := si.chunks j s hj hna
    have hss : ss = L.serials.map (fun e => (e.1, l'.getD e.2 0)) := by
      rw [← b11, b2.serials, b3.serials]
    rw [hss, c.serials, List.map_map, List.map_map] at hvw
    have := List.map_inj_left.mp hvw _ hn
    simp only [Function.comp_apply, Prod.mk.injEq, true_and] at this
    have hmem : (n, l'.getD j 0) ∈ ss := by
      rw [hss]; exact List.mem_map.mpr ⟨_, hn, rfl⟩
    have hlt2 := (s8 _ hmem).2.1
    dsimp only at hlt2
    rw [← this]
    have hbody : ∀ a, (h2.node (l'.getD j 0)).body ≠ .array a := by
      intro a ha
      have hsh := c.shape_at j (si.lt _ hn)
      rw [hj, Option.some.injEq, shape_view _ c.ok, ← this, ← shape_view _ s2] at hsh
      unfold shape at hsh
      rw [ha] at hsh
      exact hna _ _ hsh
    have hb8 := b8.bodies _ hlt2 hbody
    unfold view
    rw [hb8]
    dsimp only
    cases hbb : (h2.node (l'.getD j 0)).body with
    | array a => exact absurd hbb (hbody a)
    | fixed d => rfl
    | prefixed q => rfl

end Verif.Protocol
