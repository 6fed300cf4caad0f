import Verif.Protocol.CopyProps
/-! C29: what copies and imports lose. -/
namespace Verif.Protocol

open Verif.Wire Verif.Serial Verif.Registry

/-- Whether a build item names a serializable. -/
def BuildItem.isSer : BuildItem → Bool
  | .ser _ => true
  | _ => false

theorem addField_build (env : Env) (w : World) (p : Proto) (name : String) (kind : Option Kind)
    (enum : Option (Key Int)) (len : Option Nat) : (p.addField env w name kind enum len false).2.1.build = p.build := by
  unfold Proto.addField
  rcases World.register env w name with ⟨w1, e | ⟨⟩⟩
  · rfl
  · dsimp only
    cases enum with
    | none =>
      cases kind with
      | none => rfl
      | some k =>
        dsimp only
        rcases Heap.add (w1.heap.newPrim k (zeroVal k)).1 p.arr (w1.heap.newPrim k (zeroVal k)).2 len with ⟨h2, e | n⟩ <;> rfl
    | some key =>
      dsimp only
      cases env.enums key with
      | none => rfl
      | some e =>
        dsimp only
        rcases Heap.add (w1.heap.newPrim (kind.getD e.kind) (zeroVal (kind.getD e.kind))).1 p.arr
          (w1.heap.newPrim (kind.getD e.kind) (zeroVal (kind.getD e.kind))).2 len with ⟨h2, e | n⟩ <;> rfl

theorem enter_keeps (env : Env) (idx : Nat) (fs : List (String × Bits.Field)) (w : World) (p : Proto) :
    (Proto.enter env w p idx fs).2.1.build = p.build ∧ (Proto.enter env w p idx fs).2.1.regular = p.regular := by
  induction fs generalizing w p with
  | nil => exact ⟨rfl, rfl⟩
  | cons x rest ih =>
    obtain ⟨name, f⟩ := x
    unfold Proto.enter
    rcases World.register env w name with ⟨w1, e | ⟨⟩⟩
    · exact ⟨rfl, rfl⟩
    · dsimp only
      cases f.enum with
      | none => exact ih _ _
      | some key =>
        dsimp only
        cases env.enums (.id key) with
        | none => exact ⟨rfl, rfl⟩
        | some e => exact ih _ _

theorem addBitFields_keeps (env : Env) (w : World) (p : Proto) (g : BitGroup) :
    (p.addBitFields env w g false).2.1.build = p.build ∧ (p.addBitFields env w g false).2.1.regular = p.regular := by
  have hk := enter_keeps env p.groups.length g.grp.finalize.fields w { p with groups := p.groups ++ [⟨g.ref, g.grp.finalize⟩] }
  unfold Proto.addBitFields Proto.addGroup
  dsimp only
  rcases hr : Proto.enter env w { p with groups := p.groups ++ [⟨g.ref, g.grp.finalize⟩] } p.groups.length g.grp.finalize.fields
    with ⟨w1, p1, e | ⟨⟩⟩
  · rw [hr] at hk; exact hk
  · rw [hr] at hk
    dsimp only
    rcases w1.heap.add p1.arr g.ref none with ⟨h2, e | n⟩ <;> exact hk

theorem addGroups_keeps (env : Env) (gs : List BitGroup) (w : World) (p : Proto) :
    (p.addGroups env w gs).2.1.build = p.build ∧ (p.addGroups env w gs).2.1.regular = p.regular := by
  induction gs generalizing w p with
  | nil => exact ⟨rfl, rfl⟩
  | cons g rest ih =>
    unfold Proto.addGroups
    have hk : (p.addGroup env w g).2.1.build = p.build ∧ (p.addGroup env w g).2.1.regular = p.regular :=
      enter_keeps env p.groups.length g.grp.finalize.fields w { p with groups := p.groups ++ [⟨g.ref, g.grp.finalize⟩] }
    rcases hr : p.addGroup env w g with ⟨w1, p1, e | ⟨⟩⟩
    · rw [hr] at hk; exact hk
    · rw [hr] at hk
      exact ⟨(ih w1 p1).1.trans hk.1, (ih w1 p1).2.trans hk.2⟩

theorem addSerializable_keeps (env : Env) (w : World) (p : Proto) (name : String) (i : Nat) (len : Option Nat)
    (hb : p.build.all BuildItem.isSer = true) :
    (p.addSerializable env w name i len).2.1.build.all BuildItem.isSer = true
      ∧ (p.addSerializable env w name i len).2.1.regular = p.regular := by
  unfold Proto.addSerializable
  rcases World.register env w name with ⟨w1, e | ⟨⟩⟩
  · exact ⟨hb, rfl⟩
  · refine ⟨?_, rfl⟩
    simp only [List.all_append, hb, Bool.true_and]
    rfl

theorem replay_build (env : Env) (items : List BuildItem) (w : World) (p : Proto) (ss : List (String × Nat))
    (hb : p.build.all BuildItem.isSer = true) : (p.replay env w ss items).2.1.build.all BuildItem.isSer = true := by
  induction items generalizing w p ss with
  | nil => exact hb
  | cons item rest ih =>
    cases item with
    | bits idx =>
      unfold Proto.replay
      cases p.groups[idx]? with
      | none => exact hb
      | some g =>
        have hk := (addBitFields_keeps env w p g).1
        dsimp only
        rcases hr : p.addBitFields env w g false with ⟨w1, p1, e | ⟨⟩⟩
        · rw [hr] at hk; dsimp only at hk ⊢; rw [hk]; exact hb
        · rw [hr] at hk; exact ih _ _ _ (by dsimp only at hk; rw [hk]; exact hb)
    | ser name =>
      unfold Proto.replay
      by_cases h0 : ss = []
      · rw [if_pos h0]; exact hb
      · rw [if_neg h0]
        cases dget ss name with
        | none => exact hb
        | some i =>
          have hk := (addSerializable_keeps env w p name i none hb).1
          dsimp only
          rcases hr : p.addSerializable env w name i none with ⟨w1, p1, e | n⟩
          · rw [hr] at hk; exact hk
          · rw [hr] at hk; exact ih _ _ _ hk
    | spec s =>
      unfold Proto.replay
      have hk := addField_build env w p s.name (some s.kind) s.enum s.len
      rcases hr : p.addField env w s.name (some s.kind) s.enum s.len false with ⟨w1, p1, e | n⟩
      · rw [hr] at hk; dsimp only at hk ⊢; rw [hk]; exact hb
      · rw [hr] at hk; exact ih _ _ _ (by dsimp only at hk; rw [hk]; exact hb)

theorem replay_regular (env : Env) (items : List BuildItem) (hi : items.all BuildItem.isSer = true) (w : World) (p : Proto)
    (ss : List (String × Nat)) (hb : p.build.all BuildItem.isSer = true) : (p.replay env w ss items).2.1.regular = p.regular := by
  induction items generalizing w p ss with
  | nil => rfl
  | cons item rest ih =>
    rw [List.all_cons, Bool.and_eq_true] at hi
    cases item with
    | bits idx => exact absurd hi.1 (by simp [BuildItem.isSer])
    | spec s => exact absurd hi.1 (by simp [BuildItem.isSer])
    | ser name =>
      unfold Proto.replay
      by_cases h0 : ss = []
      · rw [if_pos h0]
      · rw [if_neg h0]
        cases dget ss name with
        | none => rfl
        | some i =>
          have hk := addSerializable_keeps env w p name i none hb
          dsimp only
          rcases hr : p.addSerializable env w name i none with ⟨w1, p1, e | n⟩
          · rw [hr] at hk; exact hk.2
          · rw [hr] at hk; exact (ih hi.2 _ _ _ hk.1).trans hk.2

theorem create_inv {env : Env} {w w' : World} {o : ByteOrder} {id : Int} {gs : List BitGroup} {items : List BuildItem}
    {ss : List (String × Nat)} {c : Proto} (h : Proto.create env w o id gs items ss = (w', .ok c)) :
    ∃ w1 p1, Proto.addGroups env (Proto.new w o id).1 (Proto.new w o id).2 gs = (w1, p1, .ok ())
      ∧ Proto.replay env w1 p1 ss items = (w', c, .ok []) := by
  unfold Proto.create at h
  dsimp only at h
  rcases hr : Proto.addGroups env (Proto.new w o id).1 (Proto.new w o id).2 gs with ⟨w1, p1, e | ⟨⟩⟩
  · rw [hr] at h; cases h
  · rw [hr] at h
    dsimp only at h
    refine ⟨w1, p1, rfl, ?_⟩
    rcases hp : Proto.replay env w1 p1 ss items with ⟨w2, p2, e | left⟩
    · rw [hp] at h; cases h
    · rw [hp] at h
      dsimp only at h
      by_cases hl : left = []
      · rw [if_pos hl] at h; cases h; rw [hl]
      · rw [if_neg hl] at h; cases h

theorem copy_inv {env : Env} {w w' : World} {p c : Proto} (h : p.copy env w = (w', .ok c)) :
    ∃ h1 gs, copyGroups env w.heap p.groups = (h1, .ok gs)
      ∧ Proto.create env { w with heap := (copySerials h1 p.serials).1 } p.order 1 gs p.build (copySerials h1 p.serials).2 = (w', .ok c) := by
  unfold Proto.copy at h
  rcases hr : copyGroups env w.heap p.groups with ⟨h1, e | gs⟩
  · rw [hr] at h; cases h
  · rw [hr] at h
    exact ⟨h1, gs, rfl, h⟩

theorem copy_build {env : Env} {w w' : World} {p c : Proto} (h : p.copy env w = (w', .ok c)) :
    c.build.all BuildItem.isSer = true := by
  obtain ⟨h1, gs, -, hc⟩ := copy_inv h
  obtain ⟨w1, p1, ha, hr⟩ := create_inv hc
  have hk := addGroups_keeps env gs (Proto.new { w with heap := (copySerials h1 p.serials).1 } p.order 1).1
    (Proto.new { w with heap := (copySerials h1 p.serials).1 } p.order 1).2
  rw [ha] at hk
  have := replay_build env p.build w1 p1 (copySerials h1 p.serials).2 (by rw [hk.1]; rfl)
  rw [hr] at this
  exact this

/-- C29 fails for a copy of a copy: whatever the protocol, no copy of a copy has a field of its own.
(The constructor replays the steps without recording them again.) -/
theorem C29_second_copy_fails (env : Env) (w w1 w2 w3 : World) (p c d : Proto) (h1 : p.copy env w = (w1, .ok c))
    (h2 : c.copy env w2 = (w3, .ok d)) : d.regular = [] := by
  have hb := copy_build h1
  obtain ⟨h, gs, -, hc⟩ := copy_inv h2
  obtain ⟨w4, p1, ha, hr⟩ := create_inv hc
  have hk := addGroups_keeps env gs (Proto.new { w2 with heap := (copySerials h c.serials).1 } c.order 1).1
    (Proto.new { w2 with heap := (copySerials h c.serials).1 } c.order 1).2
  rw [ha] at hk
  have hp1 : p1.build.all BuildItem.isSer = true := by dsimp only at hk; rw [hk.1]; rfl
  have := replay_regular env c.build hb w4 p1 (copySerials h c.serials).2 hp1
  rw [hr] at this
  dsimp only at this hk
  rw [this, hk.2]
  rfl

/-- A field and bit-fields; three bytes. -/
def smallOps : List BOp := [.field "x" (some (.int .int16)) none none, .bits sampleGroup]

def smallProto : Except PyErr (World × Proto) :=
  (Proto.new sampleWorld .big 7).2.steps sampleEnv (Proto.new sampleWorld .big 7).1 smallOps

/-- A copy of a protocol of three bytes takes three bytes, the copy of the copy none; both succeed. -/
theorem C29_second_copy_size_fails :
    (smallProto.toOption.bind fun (w, p) =>
      match p.copy sampleEnv w with
      | (w1, .ok c) =>
        match c.copy sampleEnv w1 with
        | (w2, .ok d) => some ((w2.heap.length p.arr).toOption, (w2.heap.length c.arr).toOption, (w2.heap.length d.arr).toOption)
        | _ => none
      | _ => none) = some (some 3, some 3, some 0) := by
  decide +kernel

theorem replay_sers (env : Env) (items : List BuildItem) (w w' : World) (p c : Proto) (ss left : List (String × Nat))
    (h : p.replay env w ss items = (w', c, .ok left)) :
    (∀ n, BuildItem.ser n ∈ items → n ∈ ss.map (·.1))
      ∧ ∀ a n b, items = a ++ .ser n :: b → BuildItem.ser n ∉ b := by
  induction items generalizing w p ss with
  | nil => exact ⟨fun n hn => (by cases hn), fun a n b h => by cases a <;> cases h⟩
  | cons item rest ih =>
    have other : (∀ n, BuildItem.ser n ≠ item) → ((∀ n, BuildItem.ser n ∈ rest → n ∈ ss.map (·.1))
        ∧ ∀ a n b, rest = a ++ .ser n :: b → BuildItem.ser n ∉ b) →
        (∀ n, BuildItem.ser n ∈ item :: rest → n ∈ ss.map (·.1))
        ∧ ∀ a n b, item :: rest = a ++ .ser n :: b → BuildItem.ser n ∉ b := by
      intro hne hr
      refine ⟨fun n hn => ?_, fun a n b h => ?_⟩
      · rcases List.mem_cons.mp hn with h | h
        · exact absurd h (hne n)
        · exact hr.1 n h
      · cases a with
        | nil => exact absurd (List.cons.inj h).1.symm (hne n)
        | cons x xs => exact hr.2 xs n b (List.cons.inj h).2
    cases item with
    | bits idx =>
      refine other (fun n h => by cases h) ?_
      unfold Proto.replay at h
      cases hg : p.groups[idx]? with
      | none => rw [hg] at h; cases h
      | some g =>
        rw [hg] at h
        dsimp only at h
        rcases hr : p.addBitFields env w g false with ⟨w1, p1, e | ⟨⟩⟩
        · rw [hr] at h; cases h
        · rw [hr] at h; exact ih _ _ _ h
    | spec s =>
      refine other (fun n h => by cases h) ?_
      unfold Proto.replay at h
      rcases hr : p.addField env w s.name (some s.kind) s.enum s.len false with ⟨w1, p1, e | n⟩
      · rw [hr] at h; cases h
      · rw [hr] at h; exact ih _ _ _ h
    | ser name =>
      unfold Proto.replay at h
      by_cases h0 : ss = []
      · rw [if_pos h0] at h; cases h
      · rw [if_neg h0] at h
        cases hd : dget ss name with
        | none => rw [hd] at h; cases h
        | some i =>
          rw [hd] at h
          dsimp only at h
          rcases hr : p.addSerializable env w name i none with ⟨w1, p1, e | n⟩
          · rw [hr] at h; cases h
          · rw [hr] at h
            obtain ⟨i1, i2⟩ := ih _ _ _ h
            have hpop : ∀ n, n ∈ (dpop ss name).map (·.1) → n ∈ ss.map (·.1) ∧ n ≠ name := by
              intro n hn
              obtain ⟨e, he, rfl⟩ := List.mem_map.mp hn
              unfold dpop at he
              rw [List.mem_filter] at he
              exact ⟨List.mem_map.mpr ⟨e, he.1, rfl⟩, by simpa using he.2⟩
            refine ⟨fun n hn => ?_, fun a n b hab => ?_⟩
            · rcases List.mem_cons.mp hn with h | h
              · cases h; exact List.mem_map.mpr ⟨_, dget_mem hd, rfl⟩
              · exact (hpop n (i1 n h)).1
            · cases a with
              | nil =>
                obtain ⟨e1, e2⟩ := List.cons.inj hab
                cases e1
                rw [← e2]
                exact fun hm => (hpop _ (i1 _ hm)).2 rfl
              | cons x xs => exact i2 xs n b (List.cons.inj hab).2

theorem itemsOf_append (env : Env) (a b : List BOp) (n : Nat) :
    itemsOf env n (a ++ b) = itemsOf env n a ++ itemsOf env (n + (groupsOf a).length) b := by
  induction a generalizing n with
  | nil => simp [itemsOf, groupsOf]
  | cons op r ih =>
    cases op with
    | field name kind enum len => simp [itemsOf, groupsOf, ih]
    | serial m s => simp [itemsOf, groupsOf, ih]
    | bits g =>
      simp only [List.cons_append, itemsOf, groupsOf, ih, List.length_cons]
      rw [show n + 1 + (groupsOf r).length = n + ((groupsOf r).length + 1) by omega]

theorem build_of {env : Env} {o : ByteOrder} {ops : List BOp} {w : World} {p : Proto} {l : List Nat}
    (r : Rep w p (Lay.steps env o ops) l) : p.build = itemsOf env 0 ops := by
  rw [r.core.build]
  unfold Lay.steps
  rw [steps_build env ops (Lay.new o)]
  rfl

/-- C29 fails when a name is used for two serializables: such a protocol can be built, but not copied. -/
theorem C29_repeated_serializable_fails (env : Env) (a b c : List BOp) (n : String) (s t : SerSpec)
    (hops : ∀ op ∈ a ++ .serial n s :: (b ++ .serial n t :: c), op.Ok) (o : ByteOrder) (ho : o ≠ .native) (id : Int) (w0 : World)
    (ok : HeapOk w0.heap) (v : World) (p : Proto)
    (hb : (Proto.new w0 o id).2.steps env (Proto.new w0 o id).1 (a ++ .serial n s :: (b ++ .serial n t :: c)) = .ok (v, p))
    (st : List (String × PVal)) (f : ∀ e ∈ st, (Lay.steps env o (a ++ .serial n s :: (b ++ .serial n t :: c))).Fits e.1 e.2) :
    ∀ w' d, p.copy env (p.sets env v st) ≠ (w', .ok d) := by
  intro w' d hd
  obtain ⟨l, r0, -⟩ := rep_steps env (rep_new w0 ok o ho id) _ hops v p hb
  have r := r0.sets env st f
  have hbuild := build_of (ops := a ++ .serial n s :: (b ++ .serial n t :: c)) r
  obtain ⟨h1, gs, -, hc⟩ := copy_inv hd
  obtain ⟨w1, p1, -, hr⟩ := create_inv hc
  have := (replay_sers env _ _ _ _ _ _ _ hr).2 (itemsOf env 0 a) n (itemsOf env (0 + (groupsOf a).length) (b ++ .serial n t :: c))
    (by rw [hbuild, itemsOf_append]; rfl)
  refine this ?_
  rw [itemsOf_append]
  exact List.mem_append_right _ List.mem_cons_self

/-- Such a protocol exists. -/
example : ((Proto.new sampleWorld .big 7).2.steps sampleEnv (Proto.new sampleWorld .big 7).1
    [.serial "s" (.fixed [1]), .field "x" (some (.int .int16)) none none, .serial "s" (.fixed [2])]).toOption.isSome = true := by
  decide +kernel

/-- C29 fails when a field is added behind an array serializable: the sample protocol
takes 16 bytes, its copy 17, with `z` in the array twice. -/
theorem C29_array_doubled_fails :
    (sampleProto.toOption.bind fun (w, p) =>
      match p.copy sampleEnv w with
      | (w1, .ok c) => some ((w1.heap.length p.arr).toOption, (w1.heap.length c.arr).toOption)
      | _ => none) = some (some 16, some 17) := by
  decide +kernel

/-- C29 fails for a serializable added several times at once (`array_length`): the copy has it once. -/
theorem C29_array_length_fails :
    (match SerSpec.make (Proto.new sampleWorld .big 7).1.heap (.fixed [1, 2]) with
      | (h, .ok i) =>
        match Proto.addSerializable sampleEnv ⟨h, []⟩ (Proto.new sampleWorld .big 7).2 "s" i (some 3) with
        | (w, p, .ok _) =>
          match p.copy sampleEnv w with
          | (w1, .ok c) => some ((w1.heap.length p.arr).toOption, (w1.heap.length c.arr).toOption)
          | _ => none
        | _ => none
      | _ => none) = some (some 6, some 2) := by
  decide +kernel

end Verif.Protocol
