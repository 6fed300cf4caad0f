import Verif.Protocol.Props
/-! The constructor of a protocol given the build of another one (base.py 107–125). -/
namespace Verif.Protocol

open Verif.Wire Verif.Serial Verif.Registry

/-- The build that steps leave behind; `n` groups exist already. -/
def itemsOf (env : Env) : Nat → List BOp → List BuildItem
  | _, [] => []
  | n, .field name kind enum len :: r =>
    .spec ⟨name, (resolve env kind enum).getD .bool, enum, len⟩ :: itemsOf env n r
  | n, .bits _ :: r => .bits n :: itemsOf env (n + 1) r
  | n, .serial name _ :: r => .ser name :: itemsOf env n r

/-- The groups among steps. -/
def groupsOf : List BOp → List (IntKind × List (String × Bits.Field))
  | [] => []
  | .bits g :: r => (g.kind, g.fields) :: groupsOf r
  | _ :: r => groupsOf r

/-- The serializables among steps. -/
def serialsOf : List BOp → List (String × Shape)
  | [] => []
  | .serial n s :: r => (n, s.shape) :: serialsOf r
  | _ :: r => serialsOf r

/-- The tables after entering several groups. -/
def enterGroups (env : Env) : Nat → List (IntKind × List (String × Bits.Field)) →
    List (String × Nat) × List (String × Enum) → List (String × Nat) × List (String × Enum)
  | _, [], t => t
  | n, g :: gs, t => enterGroups env (n + 1) gs (enterAll env n g.2 t)

theorem steps_build (env : Env) (ops : List BOp) (L : Lay) :
    (ops.foldl (Lay.step env) L).build = L.build ++ itemsOf env L.groups.length ops := by
  induction ops generalizing L with
  | nil => simp [itemsOf]
  | cons op r ih =>
    rw [List.foldl_cons, ih]
    cases op <;> simp [Lay.step, Lay.addField, Lay.addBits, Lay.addSer, itemsOf]

theorem steps_tables (env : Env) (ops : List BOp) (L : Lay) :
    ((ops.foldl (Lay.step env) L).lookup, (ops.foldl (Lay.step env) L).enumLookup)
      = enterGroups env L.groups.length (groupsOf ops) (L.lookup, L.enumLookup) := by
  induction ops generalizing L with
  | nil => rfl
  | cons op r ih =>
    rw [List.foldl_cons, ih]
    cases op <;> simp [Lay.step, Lay.addField, Lay.addBits, Lay.addSer, groupsOf, enterGroups]

theorem steps_groups (env : Env) (ops : List BOp) (L : Lay) :
    (ops.foldl (Lay.step env) L).groups.map (fun e => (e.2.kind, e.2.fields))
      = L.groups.map (fun e => (e.2.kind, e.2.fields)) ++ groupsOf ops := by
  induction ops generalizing L with
  | nil => simp [groupsOf]
  | cons op r ih =>
    rw [List.foldl_cons, ih]
    cases op <;> simp [Lay.step, Lay.addField, Lay.addBits, Lay.addSer, groupsOf, Bits.Group.finalize]

/-- What the registries know of a step that was made. -/
def BOp.Known (env : Env) (names : List String) : BOp → Prop
  | .field name kind enum _ => name ∈ names ∧ (resolve env kind enum).isSome
  | .bits g => (∀ e ∈ g.fields, e.1 ∈ names)
      ∧ ∀ e ∈ g.fields, ∀ key, e.2.enum = some key → (env.enums (.id key)).isSome
  | .serial name _ => name ∈ names

theorem BOp.Known.mono {env : Env} {a b : List String} {op : BOp} (h : op.Known env a) (hm : ∀ n ∈ a, n ∈ b) :
    op.Known env b := by
  cases op with
  | field name kind enum len => exact ⟨hm _ h.1, h.2⟩
  | bits g => exact ⟨fun e he => hm _ (h.1 e he), h.2⟩
  | serial name s => exact hm _ h

/-- Layouts alike but for the groups, their tables and the build. -/
structure Alike (a b : Lay) : Prop where
  order : a.order = b.order
  shapes : a.shapes = b.shapes
  regular : a.regular = b.regular
  enumFields : a.enumFields = b.enumFields
  serials : a.serials = b.serials

/-- Objects set aside for a protocol under construction. -/
structure Spare (w : World) (l : List Nat) (ss : List (String × Nat)) (pend : List BitGroup) : Prop where
  nodes : ∀ e ∈ ss, e.2 < w.heap.nn ∧ e.2 ∉ l ∧ (w.heap.node e.2).next = none ∧ Sound w.heap e.2
  nodup : (ss.map (·.2)).Nodup
  refs : ∀ g ∈ pend, g.ref < w.heap.np ∧ (w.heap.prim g.ref).kind = .int g.grp.kind ∧ g.grp.finalized = true
  prims : (slots w.heap (ss.map (·.2)) ++ pend.map (·.ref)).Nodup
  apart : ∀ q ∈ slots w.heap (ss.map (·.2)) ++ pend.map (·.ref), q ∉ slots w.heap l

theorem Spare.lt {w : World} {l : List Nat} {ss : List (String × Nat)} {pend : List BitGroup} (s : Spare w l ss pend)
    (ok : HeapOk w.heap) : ∀ q ∈ slots w.heap (ss.map (·.2)) ++ pend.map (·.ref), q < w.heap.np := by
  intro q hq
  rcases List.mem_append.mp hq with h | h
  · exact slots_lt _ ok _ q h
  · obtain ⟨g, hg, rfl⟩ := List.mem_map.mp h
    exact (s.refs g hg).1

theorem Spare.step {w w' : World} {l l' b : List Nat} {ss : List (String × Nat)} {pend : List BitGroup}
    (s : Spare w l ss pend) (hg : Good w.heap w'.heap) (hn : ∀ e ∈ ss, w'.heap.node e.2 = w.heap.node e.2)
    (hl : ∀ e ∈ ss, e.2 ∉ l') (hs : slots w'.heap l' = slots w.heap l ++ b)
    (hb : ∀ q ∈ slots w.heap (ss.map (·.2)) ++ pend.map (·.ref), q ∉ b) : Spare w' l' ss pend := by
  have he : slots w'.heap (ss.map (·.2)) = slots w.heap (ss.map (·.2)) :=
    flatMap_congr' _ (fun k hk => by
      obtain ⟨e, he, rfl⟩ := List.mem_map.mp hk
      simp only [primsOf, hn e he])
  refine ⟨fun e h => ?_, s.nodup, fun g h => ?_, ?_, ?_⟩
  · obtain ⟨h1, h2, h3, h4⟩ := s.nodes e h
    refine ⟨Nat.lt_of_lt_of_le h1 hg.2.nn, hl e h, by rw [hn e h]; exact h3, ?_⟩
    unfold Sound at h4 ⊢
    rw [hn e h]; exact h4
  · obtain ⟨h1, h2, h3⟩ := s.refs g h
    exact ⟨Nat.lt_of_lt_of_le h1 hg.2.np, by rw [hg.2.kind _ h1]; exact h2, h3⟩
  · rw [he]; exact s.prims
  · rw [he, hs]
    intro q hq hq'
    rcases List.mem_append.mp hq' with h | h
    · exact s.apart q hq h
    · exact hb q hq h

theorem Spare.tail {w : World} {l : List Nat} {e : String × Nat} {ss : List (String × Nat)} {pend : List BitGroup}
    (s : Spare w l (e :: ss) pend) : Spare w l ss pend := by
  have hc : slots w.heap ((e :: ss).map (·.2)) = primsOf w.heap e.2 ++ slots w.heap (ss.map (·.2)) := rfl
  have hp := s.prims
  have ha := s.apart
  rw [hc, List.append_assoc] at hp ha
  exact ⟨fun x hx => s.nodes x (List.mem_cons_of_mem _ hx), (List.nodup_cons.mp s.nodup).2, s.refs,
    (List.nodup_append.mp hp).2.1, fun q hq => ha q (List.mem_append_right _ hq)⟩

theorem Spare.drop {w : World} {l : List Nat} {g : BitGroup} {ss : List (String × Nat)} {pend : List BitGroup}
    (s : Spare w l ss (g :: pend)) : Spare w l ss pend := by
  have hp := s.prims
  have ha := s.apart
  rw [List.map_cons] at hp ha
  refine ⟨s.nodes, s.nodup, fun x hx => s.refs x (List.mem_cons_of_mem _ hx), ?_, fun q hq => ha q ?_⟩
  · exact hp.sublist (List.Sublist.append (List.Sublist.refl _) (List.sublist_cons_self _ _))
  · rcases List.mem_append.mp hq with h | h
    · exact List.mem_append_left _ h
    · exact List.mem_append_right _ (List.mem_cons_of_mem _ h)

/-- What a constructor leaves alone: nodes from before `n0` and the values of all primitives. -/
structure Past (n0 : Nat) (w w' : World) : Prop where
  good : Good w.heap w'.heap
  names : ∀ n ∈ w.names, n ∈ w'.names
  nodes : ∀ k, k < n0 → w'.heap.node k = w.heap.node k
  prims : ∀ q, q < w.heap.np → w'.heap.prim q = w.heap.prim q
  bodies : ∀ k, k < w.heap.nn → (∀ a, (w.heap.node k).body ≠ .array a) → (w'.heap.node k).body = (w.heap.node k).body

theorem Past.trans {n0 : Nat} {a b c : World} (h1 : Past n0 a b) (h2 : Past n0 b c) : Past n0 a c :=
  ⟨h1.good.trans h2.good, fun n hn => h2.names n (h1.names n hn),
   fun k hk => (h2.nodes k hk).trans (h1.nodes k hk),
   fun q hq => (h2.prims q (Nat.lt_of_lt_of_le hq h1.good.2.np)).trans (h1.prims q hq),
   fun k hk ha => (h2.bodies k (Nat.lt_of_lt_of_le hk h1.good.2.nn) (fun a => by rw [h1.bodies k hk ha]; exact ha a)).trans
     (h1.bodies k hk ha)⟩

theorem Kept.past {n0 : Nat} {w w' : World} {l : List Nat} (k : Kept w w' l) (hn : n0 ≤ w.heap.nn)
    (hl : ∀ x ∈ l, n0 ≤ x) : Past n0 w w' :=
  ⟨k.good, k.names, fun x hx => k.frame x (by omega) (fun hm => by have := hl x hm; omega), k.prims,
   fun x hx ha => by
    by_cases hm : x ∈ l
    · exact k.old x hm ha
    · rw [k.frame x hx hm]⟩

/-- What the steps do to the serializables. -/
theorem addField_serials (env : Env) (w w' : World) (p p' : Proto) (name : String) (kind : Option Kind)
    (enum : Option (Key Int)) (len : Option Nat) (track : Bool) (r : Except PyErr Nat)
    (h : p.addField env w name kind enum len track = (w', p', r)) : p'.serials = p.serials := by
  have hs : (p.addField env w name kind enum len track).2.1.serials = p.serials := by
    unfold Proto.addField
    rcases World.register env w name with ⟨w1, e | ⟨⟩⟩
    · rfl
    · dsimp only
      cases enum with
      | none =>
        cases kind with
        | none => rfl
        | some k =>
          dsimp only
          rcases Heap.add (w1.heap.newPrim k (zeroVal k)).1 p.arr (w1.heap.newPrim k (zeroVal k)).2 len with ⟨h2, e | n⟩ <;> rfl
      | some key =>
        dsimp only
        cases env.enums key with
        | none => rfl
        | some e =>
          dsimp only
          rcases Heap.add (w1.heap.newPrim (kind.getD e.kind) (zeroVal (kind.getD e.kind))).1 p.arr
            (w1.heap.newPrim (kind.getD e.kind) (zeroVal (kind.getD e.kind))).2 len with ⟨h2, e | n⟩ <;> rfl
  rw [h] at hs
  exact hs

theorem enter_serials (env : Env) (idx : Nat) (fs : List (String × Bits.Field)) (w : World) (p : Proto) :
    (Proto.enter env w p idx fs).2.1.serials = p.serials := by
  induction fs generalizing w p with
  | nil => rfl
  | cons x rest ih =>
    obtain ⟨name, f⟩ := x
    unfold Proto.enter
    rcases World.register env w name with ⟨w1, e | ⟨⟩⟩
    · rfl
    · dsimp only
      cases f.enum with
      | none => exact ih _ _
      | some key =>
        dsimp only
        cases env.enums (.id key) with
        | none => rfl
        | some e => exact ih _ _

theorem addBitFields_serials (env : Env) (w w' : World) (p p' : Proto) (g : BitGroup) (track : Bool) (r : Except PyErr Unit)
    (h : p.addBitFields env w g track = (w', p', r)) : p'.serials = p.serials := by
  unfold Proto.addBitFields Proto.addGroup at h
  dsimp only at h
  have he := enter_serials env p.groups.length g.grp.finalize.fields w { p with groups := p.groups ++ [⟨g.ref, g.grp.finalize⟩] }
  rcases hen : Proto.enter env w { p with groups := p.groups ++ [⟨g.ref, g.grp.finalize⟩] } p.groups.length
    g.grp.finalize.fields with ⟨w1, p1, e | ⟨⟩⟩
  · rw [hen] at h he; cases h; exact he
  · rw [hen] at h he
    dsimp only at h he
    rcases hadd : w1.heap.add p1.arr g.ref none with ⟨h2, e | n⟩
    all_goals rw [hadd] at h
    all_goals cases h
    all_goals exact he

theorem addSerializable_serials (env : Env) (w w' : World) (p p' : Proto) (name : String) (i : Nat) (len : Option Nat) (n : Nat)
    (h : p.addSerializable env w name i len = (w', p', .ok n)) : p'.serials = dset p.serials name i := by
  unfold Proto.addSerializable at h
  rcases hr : World.register env w name with ⟨w1, e | ⟨⟩⟩
  · rw [hr] at h; cases h
  · rw [hr] at h
    dsimp only at h
    rcases hadd : w1.heap.addToEnd p.arr i len with ⟨h2, r⟩
    rw [hadd] at h
    cases h
    rfl

theorem dpop_head (name : String) (i : Nat) (ss : List (String × Nat)) (h : name ∉ ss.map (·.1)) :
    dpop ((name, i) :: ss) name = ss := by
  unfold dpop
  rw [List.filter_cons]
  simp only [beq_self_eq_true, Bool.not_true, Bool.false_eq_true, if_false]
  refine List.filter_eq_self.mpr (fun e he => ?_)
  have : e.1 ≠ name := fun h' => h (h' ▸ List.mem_map_of_mem he)
  simp [this]

/-- The groups of a copy stand for those of a layout. -/
def Matches (s : List Nat) (gs : List (Nat × Bits.Group)) (bs : List BitGroup) : Prop :=
  bs.map (fun g => (g.ref, g.grp.kind, g.grp.fields)) = gs.map (fun e => (s.getD e.1 0, e.2.kind, e.2.fields))

theorem Matches.mono {s b : List Nat} {gs : List (Nat × Bits.Group)} {bs : List BitGroup} (m : Matches s gs bs)
    (h : ∀ e ∈ gs, e.1 < s.length) : Matches (s ++ b) gs bs := by
  unfold Matches at m ⊢
  rw [m]
  exact List.map_congr_left (fun e he => by rw [List.getD_append _ _ _ _ (h e he)])

theorem slots_same {h h' : Heap} {ss : List (String × Nat)} (hn : ∀ e ∈ ss, h'.node e.2 = h.node e.2) :
    slots h' (ss.map (·.2)) = slots h (ss.map (·.2)) :=
  flatMap_congr' _ (fun k hk => by
    obtain ⟨e, he, rfl⟩ := List.mem_map.mp hk
    simp only [primsOf, hn e he])

theorem replay_ok (env : Env) (n0 m0 : Nat) (ops : List BOp) : ∀ {Lp L' : Lay} {w : World} {p : Proto} {l : List Nat}
    {ss : List (String × Nat)} {fin pend : List BitGroup}, Core w p L' l → Alike L' Lp →
    (∀ op ∈ ops, op.Known env w.names) → (∀ op ∈ ops, op.Ok) →
    p.groups = fin ++ pend ++ fin → Matches (slots w.heap l) Lp.groups fin → (∀ e ∈ Lp.groups, e.1 < Lp.count) →
    pend.map (fun g => (g.grp.kind, g.grp.fields)) = groupsOf ops →
    ss.map (fun e => (e.1, shape w.heap e.2)) = serialsOf ops → (ss.map (·.1)).Nodup →
    Spare w l ss pend → n0 ≤ w.heap.nn → (∀ x ∈ l, n0 ≤ x) → (∀ e ∈ ss, n0 ≤ e.2) →
    (∀ e ∈ ss, e.1 ∉ p.serials.map (·.1)) → m0 ≤ w.heap.np →
    (∀ q ∈ slots w.heap l ++ (slots w.heap (ss.map (·.2)) ++ pend.map (·.ref)), m0 ≤ q) →
    ∃ w' p' l' L'', Proto.replay env w p ss (itemsOf env Lp.groups.length ops) = (w', p', .ok [])
      ∧ Core w' p' L'' l' ∧ Alike L'' (ops.foldl (Lay.step env) Lp)
      ∧ p'.groups = (fin ++ pend) ++ (fin ++ pend)
      ∧ Matches (slots w'.heap l') (ops.foldl (Lay.step env) Lp).groups (fin ++ pend)
      ∧ (L''.lookup, L''.enumLookup)
          = enterGroups env ((fin ++ pend).length + fin.length) (groupsOf ops) (L'.lookup, L'.enumLookup)
      ∧ p'.arr = p.arr ∧ p'.id = p.id ∧ Past n0 w w' ∧ (∀ x ∈ l', n0 ≤ x)
      ∧ p'.serials = p.serials ++ ss ∧ ∀ q ∈ slots w'.heap l', m0 ≤ q := by
  induction ops with
  | nil =>
    intro Lp L' w p l ss fin pend c same hkn hok hgr hm hlt hp hs hnd sp hn0 hl hss hsn hm0 hqs
    have hp0 : pend = [] := List.map_eq_nil_iff.mp hp
    have hs0 : ss = [] := List.map_eq_nil_iff.mp hs
    subst hp0 hs0
    refine ⟨w, p, l, L', rfl, c, same, by simpa using hgr, by simpa using hm, by simp [groupsOf, enterGroups], rfl, rfl,
      ⟨⟨c.ok, Le.refl _⟩, fun _ h => h, fun _ _ => rfl, fun _ _ => rfl, fun _ _ _ => rfl⟩, hl, by simp, by simpa [slots] using hqs⟩
  | cons op r ih =>
    intro Lp L' w p l ss fin pend c same hkn hok hgr hm hlt hp hs hnd sp hn0 hl hss hsn hm0 hqs
    have hk := hkn op List.mem_cons_self
    have hkr : ∀ o ∈ r, o.Known env w.names := fun o ho => hkn o (List.mem_cons_of_mem _ ho)
    have hokr : ∀ o ∈ r, o.Ok := fun o ho => hok o (List.mem_cons_of_mem _ ho)
    have hcnt : (slots w.heap l).length = Lp.count := by rw [c.count]; simp only [Lay.count, same.shapes]
    have hflen : fin.length = Lp.groups.length := by
      have := congrArg List.length hm
      simpa using this
    cases op with
    | field name kind enum len =>
      obtain ⟨k, hres⟩ := Option.isSome_iff_exists.mp hk.2
      have hres' : resolve env (some k) enum = some k := by
        cases enum with
        | none => rfl
        | some key =>
          simp only [resolve] at hres ⊢
          cases he : env.enums key with
          | none => rw [he] at hres; cases hres
          | some e => rfl
      obtain ⟨w2, p2, n, l2, b, f1, f2, f3, f4, f5, f6, f7, f8, f9, f10, -⟩ :=
        addField_ok env c name (some k) enum len false w (register_known env w name hk.1) k hres'
      have hser := addField_serials env _ _ _ _ _ _ _ _ _ _ f1
      have hb : ∀ q ∈ slots w.heap (ss.map (·.2)) ++ pend.map (·.ref), q ∉ b := fun q hq hqb => by
        have h1 := sp.lt c.ok q hq
        have h2 := f9 q hqb
        omega
      have hnode : ∀ e ∈ ss, w2.heap.node e.2 = w.heap.node e.2 := fun e he =>
        f8.frame _ (sp.nodes e he).1 (sp.nodes e he).2.1
      have sp2 : Spare w2 l2 ss pend := sp.step f8.good hnode (fun e he hm => by
        obtain ⟨h1, h2, -⟩ := sp.nodes e he
        rcases f10 _ hm with h | h
        · exact h2 h
        · omega) f4 hb
      have hstep : Lp.step env (.field name kind enum len) = Lp.addField env name k enum len true := by
        simp only [Lay.step, hres, Option.getD_some]
      have hcount : ∀ e ∈ Lp.groups, e.1 < (Lp.addField env name k enum len true).count := by
        intro e he
        have := hlt e he
        simp only [Lay.count, Lay.addField, kindsOf_addShape, List.length_append] at this ⊢
        omega
      have past := f8.past hn0 hl
      obtain ⟨w', p', l', L'', g1, g2, g3, g4, g5, g6, g7, g8, g9, g10, g11, g12⟩ := ih (Lp := Lp.addField env name k enum len true)
        f3 ⟨same.order, by simp [Lay.addField, same.order, same.shapes], by simp [Lay.addField, same.regular, Lay.count, same.shapes],
          by simp [Lay.addField, same.enumFields], same.serials⟩
        (fun o ho => (hkr o ho).mono f8.names) hokr (f5.trans hgr)
        (by rw [f4]; exact hm.mono (fun e he => by rw [hcnt]; exact hlt e he)) hcount hp
        ((List.map_congr_left (fun e he => by simp only [shape, hnode e he])).trans hs)
        hnd sp2 (Nat.le_trans hn0 f8.good.2.nn)
        (fun x hx => by
          rcases f10 x hx with h | h
          · exact hl x h
          · omega) hss (by rw [hser]; exact hsn) (Nat.le_trans hm0 f8.good.2.np)
        (fun q hq => by
          rw [f4, slots_same hnode] at hq
          rcases List.mem_append.mp hq with h | h
          · rcases List.mem_append.mp h with h | h
            · exact hqs q (List.mem_append_left _ h)
            · exact Nat.le_trans hm0 (f9 q h)
          · exact hqs q (List.mem_append_right _ h))
      refine ⟨w', p', l', L'', ?_, g2, ?_, g4, ?_, g6, g7.trans f6, g8.trans f7, past.trans g9, g10, by rw [g11, hser], g12⟩
      · simp only [itemsOf, Proto.replay, hres, Option.getD_some, f1]
        exact g1
      · rw [List.foldl_cons, hstep]; exact g3
      · rw [List.foldl_cons, hstep]; exact g5
    | bits g =>
      cases pend with
      | nil => cases hp
      | cons pg pend =>
      simp only [List.map_cons, groupsOf, List.cons.injEq, Prod.mk.injEq] at hp
      obtain ⟨⟨hp1, hp2⟩, hp⟩ := hp
      obtain ⟨r1, r2, r3⟩ := sp.refs pg List.mem_cons_self
      have hfinal : pg.grp.finalize = pg.grp := by
        obtain ⟨ref, grp⟩ := pg
        cases grp
        simp only at r3
        subst r3
        rfl
      obtain ⟨p1, hent⟩ := enter_known env p.groups.length pg.grp.fields w
        { p with groups := p.groups ++ [⟨pg.ref, pg.grp.finalize⟩] } (by rw [hp2]; exact hk.1) (by rw [hp2]; exact hk.2)
      have hmem : pg.ref ∈ slots w.heap (ss.map (·.2)) ++ (pg :: pend).map (·.ref) := by simp
      obtain ⟨w2, p2, l2, f1, f2, f3, f4, f5, f6, f7, f8, f9, -, -⟩ := addBitFields_ok env c pg false r1
        (sp.apart _ hmem) r2 p.groups.length rfl w p1 hent
      have hser := addBitFields_serials env _ _ _ _ _ _ _ f1
      have hnode : ∀ e ∈ ss, w2.heap.node e.2 = w.heap.node e.2 := fun e he =>
        f8.frame _ (sp.nodes e he).1 (sp.nodes e he).2.1
      have sp2 : Spare w2 l2 ss pend := sp.drop.step f8.good hnode (fun e he hm => by
        obtain ⟨h1, h2, -⟩ := sp.nodes e he
        rcases f9 _ hm with h | h
        · exact h2 h
        · omega) f4 (fun q hq hqb => by
          rw [List.mem_singleton] at hqb
          subst hqb
          have hn := sp.prims
          rw [List.map_cons] at hn
          have hn2 := (List.perm_middle.nodup_iff).mp hn
          exact (List.nodup_cons.mp hn2).1 hq)
      have past := f8.past hn0 hl
      have hcount : ∀ e ∈ (Lp.step env (.bits g)).groups, e.1 < (Lp.step env (.bits g)).count := by
        intro e he
        simp only [Lay.step, Lay.addBits, Lay.count, kindsOf_addShape, List.length_append, List.length_singleton] at he ⊢
        rcases List.mem_append.mp he with h | h
        · have := hlt e h
          simp only [Lay.count] at this
          omega
        · rw [List.mem_singleton.mp h]
          simp only [Lay.count]; omega
      have hmatch : Matches (slots w2.heap l2) (Lp.step env (.bits g)).groups (fin ++ [pg]) := by
        have h1 := hm.mono (b := [pg.ref]) (fun e he => by rw [hcnt]; exact hlt e he)
        rw [← f4] at h1
        unfold Matches at h1 ⊢
        simp only [Lay.step, Lay.addBits, List.map_append, List.map_cons, List.map_nil]
        rw [h1]
        congr 1
        rw [f4, ← hcnt, List.getD_append_right _ _ _ _ (Nat.le_refl _), Nat.sub_self, hp1, hp2]
        rfl
      have hgl : (Lp.step env (.bits g)).groups.length = Lp.groups.length + 1 := by
        simp [Lay.step, Lay.addBits]
      have same2 : Alike ({ L'.addBits env pg.grp false with
          lookup := (enterAll env p.groups.length pg.grp.fields (L'.lookup, L'.enumLookup)).1
          enumLookup := (enterAll env p.groups.length pg.grp.fields (L'.lookup, L'.enumLookup)).2
          build := if false then L'.build ++ [.bits p.groups.length] else L'.build } : Lay) (Lp.step env (.bits g)) :=
        ⟨same.order, by simp [Lay.step, Lay.addBits, same.order, same.shapes, hp1], same.regular, same.enumFields, same.serials⟩
      obtain ⟨w', p', l', L'', g1, g2, g3, g4, g5, g6, g7, g8, g9, g10, g11, g12⟩ := ih (Lp := Lp.step env (.bits g)) (fin := fin ++ [pg])
        (pend := pend) f3 same2 (fun o ho => (hkr o ho).mono f8.names) hokr
        (by rw [f5, hgr, hfinal]; simp) hmatch hcount hp
        ((List.map_congr_left (fun e he => by simp only [shape, hnode e he])).trans hs)
        hnd sp2 (Nat.le_trans hn0 f8.good.2.nn)
        (fun x hx => by
          rcases f9 x hx with h | h
          · exact hl x h
          · omega) hss (by rw [hser]; exact hsn) (Nat.le_trans hm0 f8.good.2.np)
        (fun q hq => by
          rw [f4, slots_same hnode] at hq
          rcases List.mem_append.mp hq with h | h
          · rcases List.mem_append.mp h with h | h
            · exact hqs q (List.mem_append_left _ h)
            · rw [List.mem_singleton.mp h]; exact hqs _ (List.mem_append_right _ hmem)
          · refine hqs q (List.mem_append_right _ ?_)
            rcases List.mem_append.mp h with h | h
            · exact List.mem_append_left _ h
            · exact List.mem_append_right _ (List.mem_cons_of_mem _ h))
      have hap : fin ++ [pg] ++ pend = fin ++ pg :: pend := by simp
      rw [hap] at g4 g5 g6
      refine ⟨w', p', l', L'', ?_, g2, g3, g4, g5, ?_, g7.trans f6, g8.trans f7, past.trans g9, g10, by rw [g11, hser], g12⟩
      · have hidx : p.groups[Lp.groups.length]? = some pg := by
          rw [hgr, ← hflen]
          simp
        rw [hgl] at g1
        simp only [itemsOf, Proto.replay, hidx, f1]
        exact g1
      · rw [g6]
        simp only [groupsOf, enterGroups]
        have hgl2 : p.groups.length = (fin ++ pg :: pend).length + fin.length := by rw [hgr]; simp only [List.length_append]
        rw [hgl2, hp2, List.length_append (as := fin) (bs := [pg])]
        rfl
    | serial name s =>
      cases ss with
      | nil => cases hs
      | cons e ss =>
      obtain ⟨nm, i⟩ := e
      simp only [List.map_cons, serialsOf, List.cons.injEq, Prod.mk.injEq] at hs
      obtain ⟨⟨rfl, hsh⟩, hs⟩ := hs
      rw [List.map_cons, List.nodup_cons] at hnd
      obtain ⟨i1, i2, i3, i4⟩ := sp.nodes _ List.mem_cons_self
      have hc : slots w.heap (((nm, i) :: ss).map (·.2)) = primsOf w.heap i ++ slots w.heap (ss.map (·.2)) := rfl
      have hpr := sp.prims
      have hap := sp.apart
      rw [hc, List.append_assoc] at hpr hap
      obtain ⟨hpr1, hpr2, hpr3⟩ := List.nodup_append.mp hpr
      obtain ⟨w2, p2, n, f1, f2, f3, f4, f5, f6, f7, f8, f9, f10, f11, f12, -⟩ := addSerializable_ok env c nm i i1 i3 i2 i4
        hpr1 (fun q hq => hap q (List.mem_append_left _ hq)) w (register_known env w nm hk)
      have hser : p2.serials = p.serials ++ [(nm, i)] := by
        rw [addSerializable_serials env _ _ _ _ _ _ _ _ f1]
        refine dset_fresh _ _ _ (List.any_eq_false.mpr (fun e he h => ?_))
        exact hsn _ List.mem_cons_self (List.mem_map.mpr ⟨e, he, by simpa using h⟩)
      have hndn := List.nodup_cons.mp (show (i :: ss.map (·.2)).Nodup from sp.nodup)
      have hnode : ∀ e ∈ ss, w2.heap.node e.2 = w.heap.node e.2 := fun e he =>
        f7.frame _ (sp.nodes e (List.mem_cons_of_mem _ he)).1 (sp.nodes e (List.mem_cons_of_mem _ he)).2.1
      have sp2 : Spare w2 (l ++ [i]) ss pend := sp.tail.step f7.good hnode (fun e he hm => by
        rcases List.mem_append.mp hm with h | h
        · exact (sp.nodes e (List.mem_cons_of_mem _ he)).2.1 h
        · rw [List.mem_singleton] at h
          exact hndn.1 (h ▸ List.mem_map_of_mem he)) f3 (fun q hq hqb => hpr3 q hqb q hq rfl)
      have past := f7.past hn0 hl
      have hcount : ∀ e ∈ Lp.groups, e.1 < (Lp.step env (.serial nm s)).count := by
        intro e he
        have := hlt e he
        simp only [Lay.count, Lay.step, Lay.addSer, kindsOf_append, List.length_append] at this ⊢
        omega
      rw [hsh] at f2
      obtain ⟨w', p', l', L'', g1, g2, g3, g4, g5, g6, g7, g8, g9, g10, g11, g12⟩ := ih (Lp := Lp.step env (.serial nm s))
        f2 ⟨same.order, by simp [Lay.step, Lay.addSer, same.shapes], same.regular, same.enumFields,
          by simp [Lay.step, Lay.addSer, same.shapes, same.serials]⟩
        (fun o ho => (hkr o ho).mono f7.names) hokr (f4.trans hgr)
        (by rw [f3]; exact hm.mono (fun e he => by rw [hcnt]; exact hlt e he)) hcount hp
        (by rw [← hs]; exact List.map_congr_left (fun e he => by simp only [shape, hnode e he]))
        hnd.2 sp2 (Nat.le_trans hn0 f7.good.2.nn)
        (fun x hx => by
          rcases List.mem_append.mp hx with h | h
          · exact hl x h
          · rw [List.mem_singleton.mp h]; exact hss _ List.mem_cons_self)
        (fun e he => hss e (List.mem_cons_of_mem _ he))
        (by
          rw [hser]
          intro e he hm
          rw [List.map_append] at hm
          rcases List.mem_append.mp hm with h | h
          · exact hsn e (List.mem_cons_of_mem _ he) h
          · simp only [List.map_cons, List.map_nil, List.mem_singleton] at h
            exact hnd.1 (h ▸ List.mem_map_of_mem (f := (·.1)) he))
        (by rw [f11]; exact hm0)
        (fun q hq => by
          rw [f3, slots_same hnode] at hq
          rw [hc] at hqs
          rcases List.mem_append.mp hq with h | h
          · rcases List.mem_append.mp h with h | h
            · exact hqs q (List.mem_append_left _ h)
            · exact hqs q (List.mem_append_right _ (List.mem_append_left _ (List.mem_append_left _ h)))
          · refine hqs q (List.mem_append_right _ ?_)
            rcases List.mem_append.mp h with h | h
            · exact List.mem_append_left _ (List.mem_append_right _ h)
            · exact List.mem_append_right _ h)
      refine ⟨w', p', l', L'', ?_, g2, g3, g4, g5, g6, g7.trans f5, g8.trans f6, past.trans g9, g10, ?_, g12⟩
      · simp only [itemsOf, Proto.replay]
        rw [if_neg (by simp), dget_cons, if_pos rfl]
        simp only [f1]
        rw [dpop_head nm i ss hnd.1]
        exact g1
      · rw [g11, hser, List.append_assoc]
        rfl

end Verif.Protocol
