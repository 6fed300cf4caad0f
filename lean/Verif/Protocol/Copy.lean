import Verif.Protocol.Replay
import Verif.Protocol.Fields
import Verif.Bits.Solid
import Verif.Serial.Copy
/-! C29: copies of protocols. -/
namespace Verif.Protocol

open Verif.Wire Verif.Serial Verif.Registry

/-! ### Entering groups twice -/

/-- The last group with a name. -/
def lastWith (name : String) : List (IntKind × List (String × Bits.Field)) → Option Nat
  | [] => none
  | g :: gs =>
    match lastWith name gs with
    | some j => some (j + 1)
    | none => if name ∈ g.2.map (·.1) then some 0 else none

theorem dget_enterAll (env : Env) (idx : Nat) (fs : List (String × Bits.Field))
    (t : List (String × Nat) × List (String × Enum)) (n : String) :
    dget (enterAll env idx fs t).1 n = if n ∈ fs.map (·.1) then some idx else dget t.1 n := by
  split
  · exact enterAll_self env idx fs t n (by assumption)
  · exact enterAll_other env idx fs t n (by assumption)

theorem dget_enterGroups (env : Env) (name : String) (gs : List (IntKind × List (String × Bits.Field))) (n : Nat)
    (t : List (String × Nat) × List (String × Enum)) :
    dget (enterGroups env n gs t).1 name =
      match lastWith name gs with
      | some j => some (n + j)
      | none => dget t.1 name := by
  induction gs generalizing n t with
  | nil => rfl
  | cons g gs ih =>
    simp only [enterGroups, lastWith]
    rw [ih, dget_enterAll]
    cases lastWith name gs with
    | some j => simp only [Option.some.injEq]; omega
    | none =>
      dsimp only
      split <;> simp

theorem enum_enterAll (env : Env) (fs : List (String × Bits.Field)) (n : String) :
    ∃ c : Option Enum, ∀ idx t, dget (enterAll env idx fs t).2 n = c.or (dget t.2 n) := by
  induction fs with
  | nil => exact ⟨none, fun _ _ => rfl⟩
  | cons x rest ih =>
    obtain ⟨c, hc⟩ := ih
    obtain ⟨name, f⟩ := x
    cases hf : f.enum.bind (fun key => env.enums (.id key)) with
    | none => exact ⟨c, fun idx t => by simp only [enterAll, hf]; rw [hc]⟩
    | some e =>
      by_cases hn : name = n
      · refine ⟨c.or (some e), fun idx t => ?_⟩
        simp only [enterAll, hf]
        rw [hc, hn, dget_dset_self]
        cases c <;> rfl
      · refine ⟨c, fun idx t => ?_⟩
        simp only [enterAll, hf]
        rw [hc, dget_dset_ne _ _ _ _ hn]

theorem enum_enterGroups (env : Env) (gs : List (IntKind × List (String × Bits.Field))) (name : String) :
    ∃ c : Option Enum, ∀ n t, dget (enterGroups env n gs t).2 name = c.or (dget t.2 name) := by
  induction gs with
  | nil => exact ⟨none, fun _ _ => rfl⟩
  | cons g gs ih =>
    obtain ⟨c, hc⟩ := ih
    obtain ⟨d, hd⟩ := enum_enterAll env g.2 name
    refine ⟨c.or d, fun n t => ?_⟩
    simp only [enterGroups]
    rw [hc, hd]
    cases c <;> rfl

theorem lastWith_lt (name : String) (gs : List (IntKind × List (String × Bits.Field))) (j : Nat)
    (h : lastWith name gs = some j) : j < gs.length := by
  induction gs generalizing j with
  | nil => cases h
  | cons g gs ih =>
    simp only [lastWith] at h
    cases hl : lastWith name gs with
    | some k =>
      rw [hl] at h
      simp only [Option.some.injEq] at h
      have := ih k hl
      rw [List.length_cons]; omega
    | none =>
      rw [hl] at h
      dsimp only at h
      split at h
      · cases h; simp
      · cases h

/-! ### Steps that were made are known -/

theorem step_known (env : Env) (w w' : World) (p p' : Proto) (op : BOp) (h : p.step env w op = (w', p', .ok ())) :
    op.Known env w'.names ∧ ∀ n ∈ w.names, n ∈ w'.names := by
  cases op with
  | field name kind enum len =>
    simp only [Proto.step] at h
    rcases hf : p.addField env w name kind enum len true with ⟨w2, p2, r | n⟩
    · rw [hf] at h; cases h
    · rw [hf] at h
      simp only [Except.map, Prod.mk.injEq] at h
      obtain ⟨rfl, rfl, -⟩ := h
      obtain ⟨w1, k, e1, e2⟩ := addField_inv env _ _ _ _ _ _ _ _ _ _ hf
      obtain ⟨hh, hn, hm⟩ := register_ok env w w1 name e1
      have hw : w2.names = w1.names := by
        unfold Proto.addField at hf
        rw [e1] at hf
        dsimp only at hf
        cases enum with
        | none =>
          cases kind with
          | none => cases hf
          | some k =>
            dsimp only at hf
            rcases ha : Heap.add (w1.heap.newPrim k (zeroVal k)).1 p.arr (w1.heap.newPrim k (zeroVal k)).2 len with ⟨h2, e | n⟩
            all_goals rw [ha] at hf
            all_goals cases hf
            all_goals rfl
        | some key =>
          dsimp only at hf
          cases hk : env.enums key with
          | none => rw [hk] at hf; cases hf
          | some e =>
            rw [hk] at hf
            dsimp only at hf
            rcases ha : Heap.add (w1.heap.newPrim (kind.getD e.kind) (zeroVal (kind.getD e.kind))).1 p.arr
              (w1.heap.newPrim (kind.getD e.kind) (zeroVal (kind.getD e.kind))).2 len with ⟨h2, e | n⟩
            all_goals rw [ha] at hf
            all_goals cases hf
            all_goals rfl
      rw [hw]
      exact ⟨⟨hn, by rw [e2]; rfl⟩, hm⟩
  | bits gr =>
    simp only [Proto.step, Proto.addBits, Proto.addBitFields, Proto.addGroup] at h
    rcases hen : Proto.enter env { w with heap := (w.heap.newPrim (.int gr.kind) (.int gr.raw)).1 }
      { p with groups := p.groups ++ [⟨(w.heap.newPrim (.int gr.kind) (.int gr.raw)).2, gr.finalize⟩] }
      p.groups.length gr.finalize.fields with ⟨w1, p1, e | ⟨⟩⟩
    · rw [hen] at h; cases h
    · rw [hen] at h
      dsimp only at h
      obtain ⟨e1, e2, e3, e4, -⟩ := enter_ok env _ _ _ _ _ _ hen
      rcases ha : w1.heap.add p1.arr (w.heap.newPrim (.int gr.kind) (.int gr.raw)).2 none with ⟨h2, e | n⟩
      · rw [ha] at h; cases h
      · rw [ha] at h
        cases h
        exact ⟨⟨e3, e4⟩, e2⟩
  | serial name s =>
    simp only [Proto.step] at h
    rcases hm : s.make w.heap with ⟨h1, e | i⟩
    · rw [hm] at h; cases h
    · rw [hm] at h
      dsimp only at h
      unfold Proto.addSerializable at h
      rcases hr : World.register env { w with heap := h1 } name with ⟨w1, e | ⟨⟩⟩
      · rw [hr] at h; cases h
      · rw [hr] at h
        dsimp only at h
        obtain ⟨r1, r2, r3⟩ := register_ok env _ w1 name hr
        rcases ha : w1.heap.addToEnd p.arr i none with ⟨h2, r⟩
        rw [ha] at h
        simp only [Prod.mk.injEq] at h
        rw [← h.1]
        exact ⟨r2, r3⟩

theorem steps_known (env : Env) (ops : List BOp) (w w' : World) (p p' : Proto) (h : p.steps env w ops = .ok (w', p')) :
    (∀ op ∈ ops, op.Known env w'.names) ∧ ∀ n ∈ w.names, n ∈ w'.names := by
  induction ops generalizing w p with
  | nil => cases h; exact ⟨fun _ h => (by cases h), fun _ h => h⟩
  | cons op rest ih =>
    unfold Proto.steps at h
    rcases hs : p.step env w op with ⟨w1, p1, e | ⟨⟩⟩
    · rw [hs] at h; cases h
    · rw [hs] at h
      obtain ⟨k1, m1⟩ := step_known env _ _ _ _ _ hs
      obtain ⟨k2, m2⟩ := ih _ _ h
      refine ⟨fun o ho => ?_, fun n hn => m2 n (m1 n hn)⟩
      rcases List.mem_cons.mp ho with rfl | ho
      · exact k1.mono m2
      · exact k2 o ho

theorem setItem_names (env : Env) (w : World) (p : Proto) (n : String) (v : PVal) : (p.setItem env w n v).1.names = w.names := by
  unfold Proto.setItem Proto.setBits
  split
  · split
    · split
      · rfl
      · split <;> rfl
    · rfl
    · rfl
  · split
    · rfl
    · split
      · rfl
      · split <;> rfl

theorem sets_names (env : Env) (w : World) (p : Proto) (s : List (String × PVal)) : (p.sets env w s).names = w.names := by
  induction s generalizing w with
  | nil => rfl
  | cons x rest ih => exact (ih _).trans (setItem_names env w p _ _)

/-! ### The objects a copy is built from -/

/-- Groups whose layout their dictionaries describe. -/
def BOp.Solid (validName : String → Bool) : BOp → Prop
  | .bits g => Bits.Solid validName g.kind g.byIndex ∧ g.fields = Bits.fieldsOf g.byIndex
  | _ => True

theorem newPrim_ext (h : Heap) (k : Kind) (v : Val) : Ext h (h.newPrim k v).1 :=
  ⟨fun _ _ => rfl, fun q hq => by simp only [Heap.newPrim]; rw [if_neg (by omega)], Nat.le_succ _, Nat.le_refl _⟩

theorem copyGroups_ok (env : Env) (hv : env.validName "" = false) (bs : List BitGroup) (h : Heap) (hok : HeapOk h)
    (hs : ∀ g ∈ bs, Bits.Solid env.validName g.grp.kind g.grp.byIndex ∧ g.grp.fields = Bits.fieldsOf g.grp.byIndex
      ∧ g.grp.finalized = true) :
    ∃ h' gs, copyGroups env h bs = (h', .ok gs) ∧ Ext h h' ∧ HeapOk h' ∧ h'.nn = h.nn
      ∧ gs.map (fun g => (g.grp.kind, g.grp.fields)) = bs.map (fun g => (g.grp.kind, g.grp.fields))
      ∧ (gs.map (·.ref)).Nodup
      ∧ (∀ g ∈ gs, h.np ≤ g.ref ∧ g.ref < h'.np ∧ (h'.prim g.ref).kind = .int g.grp.kind ∧ g.grp.finalized = true) := by
  induction bs generalizing h with
  | nil => exact ⟨h, [], rfl, ⟨fun _ _ => rfl, fun _ _ => rfl, Nat.le_refl _, Nat.le_refl _⟩, hok, rfl, rfl, .nil,
      fun _ hm => (by cases hm)⟩
  | cons g rest ih =>
    obtain ⟨s1, s2, s3⟩ := hs g List.mem_cons_self
    obtain ⟨g', c1, c2, c3, c4, c5⟩ := Bits.C15_layout env.validName hv { g.grp with raw := intOf (h.prim g.ref).val } s1 s2
    have hst : Spec.HasKind (.int g'.kind) (storeVal (.int g'.kind) (.int g'.raw)) :=
      (packable_iff g'.kind _).mp (wrap_packable g'.kind _)
    have hg := good_newPrim h hok (.int g'.kind) (.int g'.raw) hst
    have e1 := newPrim_ext h (.int g'.kind) (.int g'.raw)
    obtain ⟨h', gs, i1, i2, i3, i4, i5, i6, i7⟩ := ih _ hg.1 (fun x hx => hs x (List.mem_cons_of_mem _ hx))
    have hnp : (h.newPrim (.int g'.kind) (.int g'.raw)).1.np = h.np + 1 := rfl
    have hr : (h.newPrim (.int g'.kind) (.int g'.raw)).2 = h.np := rfl
    have hle := i2.np
    rw [hnp] at hle
    refine ⟨h', ⟨h.np, g'⟩ :: gs, ?_, e1.trans i2, i3, i4, ?_, ?_, ?_⟩
    · simp only [copyGroups, c1, i1, hr]
    · simp only [List.map_cons, i5, c2, c4]
    · refine List.nodup_cons.mpr ⟨fun hm => ?_, i6⟩
      obtain ⟨x, hx, he⟩ := List.mem_map.mp hm
      have := (i7 x hx).1
      rw [hnp] at this
      dsimp only at he
      omega
    · intro x hx
      rcases List.mem_cons.mp hx with rfl | hx
      · refine ⟨Nat.le_refl _, by dsimp only; omega, ?_, by rw [c5]; exact s3⟩
        dsimp only
        rw [i2.prim h.np (by rw [hnp]; omega)]
        simp [Heap.newPrim]
      · obtain ⟨j1, j2, j3, j4⟩ := i7 x hx
        rw [hnp] at j1
        exact ⟨by omega, j2, j3, j4⟩

theorem slots_ext {h h' : Heap} (e : Ext h h') (l : List Nat) (hl : ∀ k ∈ l, k < h.nn) : slots h' l = slots h l :=
  flatMap_congr' l (fun k hk => by simp only [primsOf, e.node k (hl k hk)])

theorem view_ext {h h' : Heap} (ok : HeapOk h) (e : Ext h h') (k : Nat) (hk : k < h.nn) : view h' k = view h k := by
  unfold view
  rw [e.node k hk]
  cases hb : (h.node k).body with
  | array a =>
    dsimp only
    congr 1
    exact List.map_congr_left (fun q hq => by rw [e.prim q ((ok.arrays k a hb).refs q hq)])
  | fixed d => rfl
  | prefixed p => rfl

theorem copySerials_ok (ss : List (String × Nat)) (h : Heap) (hok : HeapOk h) (hlt : ∀ e ∈ ss, e.2 < h.nn)
    (hs : ∀ e ∈ ss, Sound h e.2) :
    Ext h (copySerials h ss).1 ∧ HeapOk (copySerials h ss).1
      ∧ (copySerials h ss).2.map (fun e => (e.1, view (copySerials h ss).1 e.2)) = ss.map (fun e => (e.1, view h e.2))
      ∧ (copySerials h ss).2.map (fun e => ((copySerials h ss).1.node e.2).body.size) = ss.map (fun e => (h.node e.2).body.size)
      ∧ ((copySerials h ss).2.map (·.2)).Nodup
      ∧ (slots (copySerials h ss).1 ((copySerials h ss).2.map (·.2))).Nodup
      ∧ (∀ q ∈ slots (copySerials h ss).1 ((copySerials h ss).2.map (·.2)), h.np ≤ q)
      ∧ ∀ e ∈ (copySerials h ss).2, h.nn ≤ e.2 ∧ e.2 < (copySerials h ss).1.nn
        ∧ ((copySerials h ss).1.node e.2).next = none ∧ Sound (copySerials h ss).1 e.2 := by
  induction ss generalizing h with
  | nil => exact ⟨⟨fun _ _ => rfl, fun _ _ => rfl, Nat.le_refl _, Nat.le_refl _⟩, hok, rfl, rfl, .nil, .nil,
      fun _ hq => (by cases hq), fun _ hq => (by cases hq)⟩
  | cons x rest ih =>
    obtain ⟨n, i⟩ := x
    obtain ⟨e1, k1, f1, f2, v1, b1, pr1, nd1, sd1, nx1⟩ := copyOne_spec h hok i
    obtain ⟨sd2, sz2⟩ := sd1 (hs _ List.mem_cons_self)
    have hlt' : ∀ e ∈ rest, e.2 < h.nn := fun e he => hlt e (List.mem_cons_of_mem _ he)
    obtain ⟨i1, i2, i3, i4, i5, i6, i7, i8⟩ := ih (h.copyOne i).1 k1 (fun e he => Nat.lt_of_lt_of_le (hlt' e he) e1.nn)
      (fun e he => by
        have := hs e (List.mem_cons_of_mem _ he)
        unfold Sound at this ⊢
        rw [e1.node _ (hlt' e he)]; exact this)
    have c1 : (copySerials h ((n, i) :: rest)).1 = (copySerials (h.copyOne i).1 rest).1 := rfl
    have c2 : (copySerials h ((n, i) :: rest)).2 = (n, (h.copyOne i).2) :: (copySerials (h.copyOne i).1 rest).2 := rfl
    rw [c1, c2]
    generalize copySerials (h.copyOne i).1 rest = c at *
    obtain ⟨h2, ss'⟩ := c
    generalize h.copyOne i = o at *
    obtain ⟨h1, j⟩ := o
    dsimp only at *
    have hj : h2.node j = h1.node j := i1.node j f2
    have hpj : primsOf h2 j = primsOf h1 j := by simp only [primsOf, hj]
    refine ⟨e1.trans i1, i2, ?_, ?_, ?_, ?_, ?_, ?_⟩
    · rw [List.map_cons, List.map_cons, i3, view_ext k1 i1 j f2, v1]
      congr 1
      exact List.map_congr_left (fun e he => by rw [view_ext hok e1 _ (hlt' e he)])
    · rw [List.map_cons, List.map_cons, i4, hj, sz2]
      congr 1
      exact List.map_congr_left (fun e he => by rw [e1.node _ (hlt' e he)])
    · rw [List.map_cons]
      refine List.nodup_cons.mpr ⟨fun hm => ?_, i5⟩
      obtain ⟨e, he, hej⟩ := List.mem_map.mp hm
      have := (i8 e he).1
      omega
    · show (primsOf h2 j ++ slots h2 (ss'.map (·.2))).Nodup
      rw [hpj]
      refine List.nodup_append.mpr ⟨nd1, i6, fun a ha b hb hab => ?_⟩
      have h1 := (pr1 a ha).2
      have h2 := i7 b hb
      omega
    · intro q hq
      have hq : q ∈ primsOf h2 j ++ slots h2 (ss'.map (·.2)) := hq
      rw [hpj] at hq
      rcases List.mem_append.mp hq with h' | h'
      · exact (pr1 q h').1
      · exact Nat.le_trans e1.np (i7 q h')
    · intro e he
      rcases List.mem_cons.mp he with rfl | he
      · refine ⟨f1, Nat.lt_of_lt_of_le f2 i1.nn, by rw [hj]; exact nx1, ?_⟩
        unfold Sound at sd2 ⊢
        dsimp only
        rw [hj]; exact sd2
      · obtain ⟨j1, j2⟩ := i8 e he
        exact ⟨Nat.le_trans e1.nn j1, j2⟩

/-! ### The groups of a new protocol -/

theorem addGroups_ok (env : Env) (gs : List BitGroup) {w : World} {p : Proto} {L : Lay} {l : List Nat} (c : Core w p L l)
    (hn : ∀ g ∈ gs, ∀ e ∈ g.grp.fields, e.1 ∈ w.names)
    (he : ∀ g ∈ gs, ∀ e ∈ g.grp.fields, ∀ key, e.2.enum = some key → (env.enums (.id key)).isSome)
    (hf : ∀ g ∈ gs, g.grp.finalized = true) :
    ∃ p' L', Proto.addGroups env w p gs = (w, p', .ok ()) ∧ Core w p' L' l ∧ Alike L' L ∧ p'.groups = p.groups ++ gs
      ∧ (L'.lookup, L'.enumLookup) = enterGroups env p.groups.length (gs.map (fun g => (g.grp.kind, g.grp.fields)))
          (L.lookup, L.enumLookup)
      ∧ p'.arr = p.arr ∧ p'.id = p.id ∧ p'.serials = p.serials := by
  induction gs generalizing p L with
  | nil => exact ⟨p, L, rfl, c, ⟨rfl, rfl, rfl, rfl, rfl⟩, by simp, rfl, rfl, rfl, rfl⟩
  | cons g rest ih =>
    have hfin : g.grp.finalize = g.grp := by
      have := hf g List.mem_cons_self
      obtain ⟨ref, grp⟩ := g
      cases grp
      simp only at this
      subst this
      rfl
    obtain ⟨p1, hent⟩ := enter_known env p.groups.length g.grp.fields w { p with groups := p.groups ++ [⟨g.ref, g.grp⟩] }
      (hn g List.mem_cons_self) (he g List.mem_cons_self)
    obtain ⟨-, -, -, -, hp1⟩ := enter_ok env _ _ _ _ _ _ hent
    dsimp only at hp1
    have hlk : ∀ e ∈ (enterAll env p.groups.length g.grp.fields (L.lookup, L.enumLookup)).1, e.1 ∈ w.names := by
      intro e hm
      rcases enterAll_keys env _ _ _ e hm with h | ⟨-, f, h1, h2⟩
      · exact c.names e h
      · rw [← h2]; exact hn g List.mem_cons_self f h1
    have c1 : Core w p1 { L with
        lookup := (enterAll env p.groups.length g.grp.fields (L.lookup, L.enumLookup)).1
        enumLookup := (enterAll env p.groups.length g.grp.fields (L.lookup, L.enumLookup)).2 } l := by
      rw [hp1]
      exact ⟨c.ok, c.lt, c.chain, c.shapes, c.nodup, c.sound, c.order, c.onat, c.head, c.regular, c.regular_lt, c.serials,
        c.serials_lt, c.enumFields, by dsimp only; rw [c.lookup, c.enumLookup], by dsimp only; rw [c.lookup, c.enumLookup],
        c.build, hlk⟩
    obtain ⟨p', L', i1, i2, i3, i4, i5, i6, i7, i8⟩ := ih c1 (fun x hx => hn x (List.mem_cons_of_mem _ hx))
      (fun x hx => he x (List.mem_cons_of_mem _ hx)) (fun x hx => hf x (List.mem_cons_of_mem _ hx))
    have hg1 : p1.groups = p.groups ++ [g] := by rw [hp1]
    refine ⟨p', L', ?_, i2, ⟨i3.order, i3.shapes, i3.regular, i3.enumFields, i3.serials⟩, ?_, ?_, ?_, ?_, ?_⟩
    · simp only [Proto.addGroups, Proto.addGroup, hfin, hent, i1]
    · rw [i4, hg1, List.append_assoc]; rfl
    · rw [i5, hg1, List.length_append]
      rfl
    · rw [i6, hp1]
    · rw [i7, hp1]
    · rw [i8, hp1]

end Verif.Protocol
