import Verif.Env.LoadProps
/-! C68: environments as calls build them, exported and loaded again. -/
namespace Verif.Environment

open Verif.Wire Verif.Registry

/-! ### Registering an item -/

theorem registerDict_ok {α : Type} {v : String → Bool} {idOf : α → Int} {r r' : Reg α} {n : String}
    {make : Int → Except PyErr α} {x : α} (hid : ∀ i y, make i = .ok y → idOf y = i)
    (hn : NamesOk v r.names.map) (h : r.registerDict v idOf n none make = (r', .ok (some x))) :
    dget r.items n = none ∧ r'.items = dset r.items n x ∧ (∃ i, make i = .ok x) ∧ NamesOk v r'.names.map
      ∧ (∀ m k, r.names.map.identifier (.name m) = some k → r'.names.map.identifier (.name m) = some k)
      ∧ r'.names.map.identifier (.name n) = some (idOf x) := by
  obtain ⟨r1, r2, r3⟩ := register_names v r.names hn n
  unfold Reg.registerDict at h
  rcases hreg : r.names.register v n none with ⟨nr, e | _ | i⟩
  · rw [hreg] at h; cases h
  · rw [hreg] at h; cases h
  · rw [hreg] at h r1 r2 r3
    dsimp only at h r1 r2 r3
    cases hm : make i with
    | error e => rw [hm] at h; cases h
    | ok y =>
      rw [hm] at h
      dsimp only at h
      have hy := hid i y hm
      have hk : nr.register v n (some (idOf y)) = (nr, .ok (some i)) := by
        unfold NameReg.register
        rw [r3 i rfl, hy]
        simp
      unfold Reg.register at h
      simp only [hk, Option.isSome_some, Bool.true_and] at h
      cases hd : dget r.items n with
      | some z => rw [hd] at h; simp at h
      | none =>
        rw [hd] at h
        simp only [Option.isNone_none, if_true] at h
        cases h
        exact ⟨rfl, rfl, ⟨i, hm⟩, r1, r2, by rw [r3 i rfl, hy]⟩

theorem getItem_isSome {α : Type} {r : Reg α} {k : Key Int} {x : α} (h : r.getItem k = .ok x) : (r.get k).isSome := by
  unfold Reg.getItem at h
  cases hg : r.get k with
  | none => rw [hg] at h; cases h
  | some y => rfl

/-- Registering more does not lose what a key found. -/
theorem get_mono {α : Type} {idOf : α → Int} {v : String → Bool} {r r' : Reg α} (hb : Registry.Spec.Bij r.names.map) (hn : NamesOk v r'.names.map)
    (hm : ∀ m k, r.names.map.identifier (.name m) = some k → r'.names.map.identifier (.name m) = some k)
    (hi : ∀ n x, dget r.items n = some x → (dget r'.items n).isSome) (k : Key Int) (h : (r.get k).isSome) :
    (r'.get k).isSome := by
  have _ := idOf
  unfold Reg.get at h ⊢
  cases hk : r.names.map.nameOf k with
  | none => rw [hk] at h; cases h
  | some n =>
    rw [hk] at h
    dsimp only at h
    obtain ⟨x, hx⟩ := Option.isSome_iff_exists.mp h
    have hk' : r'.names.map.nameOf k = some n := by
      cases k with
      | id i => exact (hn.bij i n).mpr (hm n i ((hb i n).mp hk))
      | name s =>
        simp only [Mapping.nameOf] at hk ⊢
        split at hk
        · rename_i hs
          cases hk
          have : (r'.names.map.identifier (.name n)).isSome := identifier_isSome_mono hm hs
          simp only [Mapping.identifier] at this
          rw [if_pos this]
        · cases hk
    rw [hk']
    exact hi n x hx

theorem dset_mem_cases {β : Type} {d : List (String × β)} {k : String} {v : β} {P : String × β → Prop}
    (h : ∀ p ∈ d, P p) (hv : P (k, v)) : ∀ p ∈ dset d k v, P p := by
  intro p hp
  rcases mem_dset hp with hp | rfl
  · exact h p hp
  · exact hv

/-- A new mapping of members is one as `register` leaves it. -/
theorem load_fine {K : Type} [DecidableEq K] (v : String → Bool) (l : List (K × String)) (m m' : Mapping K)
    (h : m.load v l = (m', .ok ())) (hb : Registry.Spec.Bij m) (hk : (m.reverse.map Prod.fst).Nodup)
    (hv : ∀ n k, m.identifier (.name n) = some k → v n = true) :
    Registry.Spec.Bij m' ∧ (m'.reverse.map Prod.fst).Nodup ∧ ∀ n k, m'.identifier (.name n) = some k → v n = true := by
  induction l generalizing m with
  | nil =>
    simp only [Mapping.load, Prod.mk.injEq] at h
    obtain ⟨rfl, -⟩ := h
    exact ⟨hb, hk, hv⟩
  | cons p l ih =>
    obtain ⟨k, n⟩ := p
    unfold Mapping.load at h
    rcases hs : m.set v k n with ⟨m1, e | ⟨⟩⟩
    · rw [hs] at h; cases h
    · rw [hs] at h
      dsimp only at h
      have hb1 := (C16_pairing v m m1 k n hb hs).1
      obtain ⟨hval, ⟨-, -, rfl⟩ | ⟨h1, h2, rfl⟩⟩ := Registry.set_ok hb hs
      · exact ih m1 h hb1 hk hv
      · refine ih _ h hb1 (dset_nodup _ _ _ hk) ?_
        intro n' k' hn'
        simp only [Mapping.identifier] at hn'
        rw [dget_dset] at hn'
        by_cases he : n = n'
        · subst he; exact hval
        · rw [if_neg he] at hn'
          exact hv n' k' hn'

theorem create_fine (rx : Rx) (i : Int) (l : Members) (e : EnumD) (h : EnumD.create rx (i, l) = .ok e) :
    e.id = i ∧ EnumFine rx e.enum := by
  have key : ∀ {K : Type} [DecidableEq K] (l : List (String × K)) (m : Mapping K), Mapping.new rx.name [] l = .ok m →
      Registry.Spec.Bij m ∧ (m.reverse.map Prod.fst).Nodup ∧ ∀ n k, m.identifier (.name n) = some k → rx.name n = true := by
    intro K _ l m hm
    unfold Mapping.new at hm
    simp only [Mapping.load] at hm
    rcases hl : (Mapping.empty : Mapping K).load rx.name (l.map (fun p => (p.2, p.1))) with ⟨m1, e | ⟨⟩⟩
    · rw [hl] at hm; cases hm
    · rw [hl] at hm
      cases hm
      exact load_fine rx.name _ _ _ hl bij_empty (by simp [Mapping.empty])
        (fun n k hn => by simp [Mapping.identifier, Mapping.empty, dget_nil] at hn)
  cases l with
  | ints l =>
    unfold EnumD.create at h
    cases hm : Mapping.new rx.name [] l with
    | error e => simp only [hm, Except.map] at h; cases h
    | ok m =>
      simp only [hm, Except.map] at h
      cases h
      exact ⟨rfl, key l m hm⟩
  | bools l =>
    unfold EnumD.create at h
    cases hm : Mapping.new rx.name [] l with
    | error e => simp only [hm, Except.map] at h; cases h
    | ok m =>
      simp only [hm, Except.map] at h
      cases h
      exact ⟨rfl, key l m hm⟩

/-! ### Calls that keep an environment clean -/

/-- Arguments of a call that are what the documentation of the model asks for: a default the primitive holds; a group
that is laid out as `BitFields` does it, on an integer primitive; a field that is inside the primitive, does not overlap
an earlier one and is not added to a group that was added already. -/
def BOp.Apt (rx : Rx) (sem : Sem) (L : Live) : BOp → Prop
  | .enum _ _ => True
  | .channel _ slot _ _ default => Spec.Fits sem (L.prim slot).kind (default.getD (L.prim slot).kind.zero)
  | .add o => Fine rx L o
  | .field o _ f => Fine rx L o ∧ o ∉ L.groups ∧ 0 < f.width ∧ f.index + f.width ≤ (L.group o).1.kind.bits
      ∧ rx.field f.name = true ∧ ∀ p ∈ (L.group o).1.byIndex, ∀ b,
        ¬ (Bits.Spec.Covers p.1 p.2.width b ∧ Bits.Spec.Covers f.index f.width b)

/-- Every call of a history is apt. -/
def Apt (rx : Rx) (sem : Sem) (L : Live) : List BOp → Prop
  | [] => True
  | op :: rest => op.Apt rx sem L ∧ Apt rx sem (op.run rx L).1 rest

theorem claim_fine {rx : Rx} {L : Live} {o : Nat} {f : Bits.Field} {g : Bits.Group} (hf : Fine rx L o)
    (hw : 0 < f.width) (hin : f.index + f.width ≤ (L.group o).1.kind.bits) (hv : rx.field f.name = true)
    (hd : ∀ p ∈ (L.group o).1.byIndex, ∀ b, ¬ (Bits.Spec.Covers p.1 p.2.width b ∧ Bits.Spec.Covers f.index f.width b))
    (h : claimField (L.group o).1 f = (g, .ok ())) :
    g.kind = (L.group o).1.kind ∧ Bits.Solid rx.field g.kind g.byIndex ∧ g.fields = Bits.fieldsOf g.byIndex := by
  unfold claimField at h
  by_cases hn : (L.group o).1.fields.any (·.1 == f.name) = true
  · rw [if_pos hn] at h; cases h
  · rw [if_neg hn] at h
    cases h
    have hs := hf.solid
    have hfresh := Bits.any_keys_false (L.group o).1.byIndex f.index f.width hw (fun p hp => (hs.inside p hp).1) hd
    dsimp only
    rw [dset_fresh (L.group o).1.byIndex f.index _ hfresh, Bits.fieldsOf_field]
    refine ⟨rfl, ⟨?_, ?_, ?_, ?_, ?_⟩, by rw [hf.fields]⟩
    · intro p hp
      rcases List.mem_append.mp hp with hp | hp
      · exact hs.inside p hp
      · rw [List.mem_singleton.mp hp]; exact ⟨hw, hin⟩
    · rw [List.pairwise_append]
      refine ⟨hs.disjoint, List.pairwise_singleton _ _, ?_⟩
      intro p hp q hq b
      rw [List.mem_singleton.mp hq]
      exact hd p hp b
    · intro i f' hp
      rcases List.mem_append.mp hp with hp | hp
      · exact hs.field i f' hp
      · cases List.mem_singleton.mp hp
        exact ⟨rfl, hv⟩
    · refine hs.names.snoc _ ?_
      intro i f' he _
      cases he
      rw [← hf.fields]
      exact Bool.eq_false_iff.mpr hn
    · intro i w x hp
      rcases List.mem_append.mp hp with hp | hp
      · exact hs.pads i w x hp
      · cases List.mem_singleton.mp hp

theorem clean_step (rx : Rx) (sem : Sem) (L L' : Live) (op : BOp) (hc : Clean rx sem L) (ha : op.Apt rx sem L)
    (h : op.run rx L = (L', .ok ())) : Clean rx sem L' := by
  cases op with
  | add o => exact (clean_add rx sem L L' o hc ha h).1
  | enum n l =>
    simp only [BOp.run, Live.enum] at h
    rcases hr : L.enums.registerDict rx.name EnumD.id n none (fun i => EnumD.create rx (i, l)) with ⟨r, e | _ | e⟩
    · rw [hr] at h; cases h
    · rw [hr] at h; cases h
    · rw [hr] at h
      cases h
      obtain ⟨d1, d2, ⟨i, d3⟩, d4, d5, d6⟩ := registerDict_ok
        (fun i y hy => (create_fine rx i l y hy).1) hc.enumNames hr
      have hmono : ∀ k, (L.enums.get k).isSome → (r.get k).isSome := by
        refine get_mono (idOf := EnumD.id) hc.enumNames.bij d4 d5 (fun m x hx => ?_)
        rw [d2, dget_dset]
        split
        · rfl
        · rw [hx]; rfl
      refine ⟨hc.names, hc.items, hc.ids, hc.kinds, hc.defaults, fun p hp k hk => hmono k (hc.chanEnums p hp k hk),
        d4, ?_, ?_, ?_, ?_, ?_, hc.lookup, ?_⟩
      · dsimp only; rw [d2]; exact dset_nodup _ _ _ hc.enumItems
      · intro m x hx
        dsimp only at hx ⊢
        rw [d2, dget_dset] at hx
        by_cases he : n = m
        · subst he
          rw [if_pos rfl] at hx
          cases hx
          exact d6
        · rw [if_neg he] at hx
          exact d5 m _ (hc.enumIds m x hx)
      · dsimp only
        rw [d2]
        exact dset_mem_cases (P := fun (p : String × EnumD) => EnumFine rx p.2.enum) hc.members (create_fine rx i l e d3).2
      · exact fun o ho => ⟨(hc.fine o ho).solid, (hc.fine o ho).fields, (hc.fine o ho).prim⟩
      · exact fun o ho => ⟨(hc.known o ho).names, fun p hp e he => hmono _ ((hc.known o ho).enums p hp e he)⟩
      · exact fun o ho => ⟨(hc.later o ho).solid, (hc.later o ho).fields, (hc.later o ho).prim⟩
  | channel n slot cm en df =>
    simp only [BOp.run, Live.channel] at h
    rcases hr : L.chans.registerDict rx.chan (fun c => c.1.id) n none
      (fun i => .ok (⟨i, (L.prim slot).kind, cm, en, df⟩, slot)) with ⟨r, e | _ | c⟩
    · rw [hr] at h; cases h
    · rw [hr] at h; cases h
    · rw [hr] at h
      dsimp only at h
      have hen : L' = { L with chans := r } ∧ ∀ k, en = some k → (L.enums.get k).isSome := by
        cases en with
        | none => cases h; exact ⟨rfl, fun k hk => (by cases hk)⟩
        | some k =>
          dsimp only at h
          cases hg : L.enums.getItem k with
          | error e => rw [hg] at h; cases h
          | ok x =>
            rw [hg] at h
            cases h
            refine ⟨rfl, fun k' hk' => ?_⟩
            cases hk'
            exact getItem_isSome hg
      obtain ⟨rfl, hen⟩ := hen
      obtain ⟨d1, d2, ⟨i, d3⟩, d4, d5, d6⟩ := registerDict_ok (fun i y hy => by cases hy; rfl) hc.names hr
      cases d3
      refine ⟨d4, ?_, ?_, ?_, ?_, ?_, hc.enumNames, hc.enumItems, hc.enumIds, hc.members, ?_, ?_, hc.lookup, ?_⟩
      · dsimp only; rw [d2]; exact dset_nodup _ _ _ hc.items
      · intro m x hx
        dsimp only at hx ⊢
        rw [d2, dget_dset] at hx
        by_cases he : n = m
        · subst he
          rw [if_pos rfl] at hx
          cases hx
          exact d6
        · rw [if_neg he] at hx
          exact d5 m _ (hc.ids m x hx)
      · dsimp only
        rw [d2]
        exact dset_mem_cases (P := fun (p : String × (ChanD × Nat)) => (L.prim p.2.2).kind = p.2.1.kind) hc.kinds rfl
      · dsimp only
        rw [d2]
        exact dset_mem_cases (P := fun (p : String × (ChanD × Nat)) => Spec.Fits sem p.2.1.kind p.2.1.initial) hc.defaults ha
      · dsimp only
        rw [d2]
        exact dset_mem_cases (P := fun (p : String × (ChanD × Nat)) => ∀ k, p.2.1.enum = some k → (L.enums.get k).isSome) hc.chanEnums hen
      · exact fun o ho => ⟨(hc.fine o ho).solid, (hc.fine o ho).fields, (hc.fine o ho).prim⟩
      · exact fun o ho => ⟨fun p hp => identifier_isSome_mono d5 ((hc.known o ho).names p hp), (hc.known o ho).enums⟩
      · exact fun o ho => ⟨(hc.later o ho).solid, (hc.later o ho).fields, (hc.later o ho).prim⟩
  | field o fresh f =>
    obtain ⟨a1, a2, a3, a4, a5, a6⟩ := ha
    simp only [BOp.run, Live.addField] at h
    rcases hr : claimField (L.group o).1 f with ⟨g, e | ⟨⟩⟩
    · rw [hr] at h; cases h
    · rw [hr] at h
      cases h
      obtain ⟨k1, k2, k3⟩ := claim_fine a1 a3 a4 a5 a6 hr
      have hother : ∀ j, j ∈ L.groups → j ≠ o := fun j hj he => a2 (he ▸ hj)
      have hfine : ∀ j, Fine rx L j → Fine rx
          { L with
            group := fun j => if j = o then (g, (L.group o).2) else L.group j
            toAdd := if fresh then L.toAdd ++ [o] else L.toAdd } j := by
        intro j hj
        by_cases he : j = o
        · subst he
          refine ⟨?_, ?_, ?_⟩
          · simp only [if_true]; exact k2
          · simp only [if_true]; exact k3
          · simp only [if_true]; rw [k1]; exact a1.prim
        · refine ⟨?_, ?_, ?_⟩
          · simp only [if_neg he]; exact hj.solid
          · simp only [if_neg he]; exact hj.fields
          · simp only [if_neg he]; exact hj.prim
      refine ⟨hc.names, hc.items, hc.ids, hc.kinds, hc.defaults, hc.chanEnums, hc.enumNames, hc.enumItems, hc.enumIds,
        hc.members, fun j hj => hfine j (hc.fine j hj), ?_, ?_, ?_⟩
      · intro j hj
        refine ⟨?_, ?_⟩
        · simp only [if_neg (hother j hj)]; exact (hc.known j hj).names
        · simp only [if_neg (hother j hj)]; exact (hc.known j hj).enums
      · show L.lookup = _
        rw [hc.lookup]
        congr 1
        apply List.map_congr_left
        intro j hj
        simp only [if_neg (hother j hj)]
      · intro j hj
        dsimp only at hj
        refine hfine j ?_
        cases fresh with
        | false => exact hc.later j hj
        | true =>
          rcases List.mem_append.mp hj with hj | hj
          · exact hc.later j hj
          · rw [List.mem_singleton.mp hj]; exact a1

theorem clean_start (rx : Rx) (sem : Sem) (prim : Nat → Prim) (group : Nat → Bits.Group × Nat) :
    Clean rx sem (Live.start prim group) := by
  have hn : ∀ v, NamesOk v (Mapping.empty : Mapping Int) := fun v =>
    ⟨bij_empty, by simp [Mapping.empty], fun n k h => by simp [Mapping.identifier, Mapping.empty, dget_nil] at h⟩
  exact
    { names := hn _, items := by simp [Live.start], ids := fun n x h => (by cases h), kinds := fun p h => (by cases h)
      defaults := fun p h => (by cases h), chanEnums := fun p h => (by cases h), enumNames := hn _
      enumItems := by simp [Live.start], enumIds := fun n x h => (by cases h), members := fun p h => (by cases h)
      fine := fun o h => (by cases h), known := fun o h => (by cases h), lookup := rfl, later := fun o h => (by cases h) }

theorem clean_build (rx : Rx) (sem : Sem) (ops : List BOp) (L L' : Live) (hc : Clean rx sem L) (ha : Apt rx sem L ops)
    (h : L.build rx ops = (L', .ok ())) : Clean rx sem L' := by
  induction ops generalizing L with
  | nil => cases h; exact hc
  | cons op ops ih =>
    unfold Live.build at h
    obtain ⟨a1, a2⟩ := ha
    rcases hr : op.run rx L with ⟨L1, e | ⟨⟩⟩
    · rw [hr] at h; cases h
    · rw [hr] at h a2
      exact ih L1 (clean_step rx sem L L1 op hc a1 hr) a2 h

end Verif.Environment
