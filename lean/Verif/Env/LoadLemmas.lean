import Verif.Env.Load
import Mathlib.Data.List.Forall2
/-! Lemmas for C68: what survives export and loading, part by part. -/
namespace Verif.Environment

open Verif.Wire Verif.Registry

/-! ### Dictionaries -/

theorem mem_dget {β : Type} {d : List (String × β)} (hn : (d.map Prod.fst).Nodup) {k : String} {v : β}
    (h : (k, v) ∈ d) : dget d k = some v := by
  induction d with
  | nil => cases h
  | cons p d ih =>
    rw [List.map_cons, List.nodup_cons] at hn
    rw [dget_cons]
    rcases List.mem_cons.mp h with rfl | h
    · simp
    · rw [if_neg (fun e : p.1 = k => hn.1 (List.mem_map.mpr ⟨_, h, e.symm⟩))]
      exact ih hn.2 h

theorem dget_mapv {β γ : Type} (d : List (String × β)) (f : β → γ) (k : String) :
    dget (d.map (fun p => (p.1, f p.2))) k = (dget d k).map f := by
  induction d with
  | nil => rfl
  | cons p d ih =>
    rw [List.map_cons, dget_cons, dget_cons, ih]
    dsimp only
    split <;> rfl

theorem dget_filterMap {β γ : Type} (d : List (String × β)) (hn : (d.map Prod.fst).Nodup) (f : β → String → Option γ)
    (k : String) :
    dget (d.filterMap (fun p => (f p.2 p.1).map (fun x => (p.1, x)))) k = (dget d k).bind (fun v => f v k) := by
  induction d with
  | nil => rfl
  | cons p d ih =>
    rw [List.map_cons, List.nodup_cons] at hn
    have ih := ih hn.2
    rw [dget_cons]
    cases hf : f p.2 p.1 with
    | none =>
      rw [List.filterMap_cons_none (by rw [hf]; rfl), ih]
      by_cases hk : p.1 = k
      · rw [if_pos hk]
        subst hk
        have : dget d p.1 = none := by
          cases hd : dget d p.1 with
          | none => rfl
          | some v => exact absurd (List.mem_map.mpr ⟨_, dget_mem hd, rfl⟩) hn.1
        rw [this]
        simp [hf]
      · rw [if_neg hk]
    | some x =>
      rw [List.filterMap_cons_some (by rw [hf]; rfl), dget_cons]
      dsimp only
      by_cases hk : p.1 = k
      · subst hk; simp [hf]
      · rw [if_neg hk, if_neg hk, ih]

theorem foldl_dset {β : Type} (d e : List (String × β)) (hn : ((e ++ d).map Prod.fst).Nodup) :
    d.foldl (fun d p => dset d p.1 p.2) e = e ++ d := by
  induction d generalizing e with
  | nil => simp
  | cons p d ih =>
    have hf : e.any (·.1 == p.1) = false := by
      rw [← dget_none_iff]
      cases h : dget e p.1 with
      | none => rfl
      | some v =>
        rw [List.map_append, List.nodup_append] at hn
        exact absurd rfl (hn.2.2 p.1 (List.mem_map.mpr ⟨_, dget_mem h, rfl⟩) p.1 (by simp))
    rw [List.foldl_cons, dset_fresh _ _ _ hf, ih _ (by simpa using hn)]
    simp

theorem dset_nodup {β : Type} (d : List (String × β)) (k : String) (v : β) (hn : (d.map Prod.fst).Nodup) :
    ((dset d k v).map Prod.fst).Nodup := by
  rw [dset_keys]
  split
  · exact hn
  · rename_i h
    rw [List.nodup_append]
    refine ⟨hn, by simp, ?_⟩
    rintro a ha b hb rfl
    rw [List.mem_singleton.mp hb] at ha
    apply h
    obtain ⟨p, hp, e⟩ := List.mem_map.mp ha
    exact List.any_eq_true.mpr ⟨p, hp, by simpa using e⟩

/-! ### Names -/

/-- Two mappings answer alike. -/
def SameMap {K : Type} [DecidableEq K] (m m' : Mapping K) : Prop :=
  ∀ key, m'.nameOf key = m.nameOf key ∧ m'.identifier key = m.identifier key

theorem same_of_ids {K : Type} [DecidableEq K] {m m' : Mapping K} (hb : Registry.Spec.Bij m) (hb' : Registry.Spec.Bij m')
    (h : ∀ k n, m'.nameOf (.id k) = some n ↔ m.nameOf (.id k) = some n) : SameMap m m' := by
  have h1 : ∀ k : K, m'.nameOf (.id k) = m.nameOf (.id k) := fun k => Option.ext (fun n => h k n)
  have h2 : ∀ n, m'.identifier (.name n) = m.identifier (.name n) := by
    intro n
    apply Option.ext
    intro k
    exact (hb' k n).symm.trans ((h k n).trans (hb k n))
  intro key
  cases key with
  | id k =>
    refine ⟨h1 k, ?_⟩
    have := h1 k
    simp only [Mapping.nameOf] at this
    simp only [Mapping.identifier, this]
  | name n =>
    refine ⟨?_, h2 n⟩
    have := h2 n
    simp only [Mapping.identifier] at this
    simp only [Mapping.nameOf, this]

/-- The pairs of a mapping are consistent. -/
theorem rev_pairs {K : Type} [DecidableEq K] {m : Mapping K} (hb : Registry.Spec.Bij m)
    (hn : (m.reverse.map Prod.fst).Nodup) (p q : K × String)
    (hp : p ∈ m.reverse.map (fun p => (p.2, p.1))) (hq : q ∈ m.reverse.map (fun p => (p.2, p.1))) :
    p.1 = q.1 ↔ p.2 = q.2 := by
  obtain ⟨⟨n, k⟩, h1, rfl⟩ := List.mem_map.mp hp
  obtain ⟨⟨n', k'⟩, h2, rfl⟩ := List.mem_map.mp hq
  have e1 : m.identifier (.name n) = some k := mem_dget hn h1
  have e2 : m.identifier (.name n') = some k' := mem_dget hn h2
  dsimp only
  constructor
  · rintro rfl
    have a1 := (hb k n).mpr e1
    have a2 := (hb k n').mpr e2
    rw [a1] at a2
    exact Option.some.inj a2
  · rintro rfl
    rw [e1] at e2
    exact Option.some.inj e2

theorem mem_rev {K : Type} [DecidableEq K] {m : Mapping K} (hb : Registry.Spec.Bij m)
    (hn : (m.reverse.map Prod.fst).Nodup) (k : K) (n : String) :
    (k, n) ∈ m.reverse.map (fun p => (p.2, p.1)) ↔ m.nameOf (.id k) = some n := by
  rw [hb k n]
  constructor
  · intro h
    obtain ⟨⟨n', k'⟩, h1, e⟩ := List.mem_map.mp h
    cases e
    exact mem_dget hn h1
  · intro h
    exact List.mem_map.mpr ⟨(n, k), dget_mem h, rfl⟩

theorem load_same {K : Type} [DecidableEq K] (v : String → Bool) {m m1 : Mapping K} (hb : Registry.Spec.Bij m)
    (hn : (m.reverse.map Prod.fst).Nodup) (hv : ∀ n k, m.identifier (.name n) = some k → v n = true)
    (hb1 : Registry.Spec.Bij m1) (hsub : ∀ k n, m1.nameOf (.id k) = some n → m.nameOf (.id k) = some n) :
    ∃ m', m1.load v (m.reverse.map (fun p => (p.2, p.1))) = (m', .ok ()) ∧ Registry.Spec.Bij m' ∧ SameMap m m' := by
  obtain ⟨m', h⟩ := C16_construct_accepts v (m.reverse.map (fun p => (p.2, p.1))) m1 hb1
    (by
      intro p hp
      obtain ⟨⟨n, k⟩, h1, rfl⟩ := List.mem_map.mp hp
      exact hv n k (mem_dget hn h1))
    (fun p hp q hq => rev_pairs hb hn p q hp hq)
    (by
      intro p hp k n hkn
      exact rev_pairs hb hn p (k, n) hp ((mem_rev hb hn k n).mpr (hsub k n hkn)))
  obtain ⟨b, e⟩ := C16_load v _ m1 m' hb1 h
  refine ⟨m', h, b, same_of_ids hb b ?_⟩
  intro k n
  rw [e, mem_rev hb hn]
  exact ⟨fun h => h.elim (hsub k n) id, Or.inr⟩

theorem new_same {K : Type} [DecidableEq K] (v : String → Bool) {m : Mapping K} (hb : Registry.Spec.Bij m)
    (hn : (m.reverse.map Prod.fst).Nodup) (hv : ∀ n k, m.identifier (.name n) = some k → v n = true) :
    ∃ m', Mapping.new v [] m.reverse = .ok m' ∧ Registry.Spec.Bij m' ∧ SameMap m m' := by
  obtain ⟨m', h, b, s⟩ := load_same v hb hn hv (m1 := Mapping.empty) bij_empty (by
    intro k n h; simp [Mapping.nameOf, Mapping.empty, dget_nil] at h)
  refine ⟨m', ?_, b, s⟩
  unfold Mapping.new
  simp only [Mapping.load, h]

/-! ### Enumerations -/

/-- An enumeration as `enum` and `register_int`, `register_bool` leave it. -/
def EnumFine (rx : Rx) : Enum → Prop
  | .ints m => Registry.Spec.Bij m ∧ (m.reverse.map Prod.fst).Nodup ∧ ∀ n k, m.identifier (.name n) = some k → rx.name n = true
  | .bools m => Registry.Spec.Bij m ∧ (m.reverse.map Prod.fst).Nodup ∧ ∀ n k, m.identifier (.name n) = some k → rx.name n = true

theorem EnumFine.ok {rx : Rx} {e : Enum} (h : EnumFine rx e) : Spec.EnumOk e := by
  cases e <;> exact h.1

/-- The same kind of enumeration with the same members. -/
def SameEnum : Enum → Enum → Prop
  | .ints m, .ints m' => SameMap m m' ∧ Registry.Spec.Bij m'
  | .bools m, .bools m' => SameMap m m' ∧ Registry.Spec.Bij m'
  | _, _ => False

theorem SameEnum.getStr {e e' : Enum} (h : SameEnum e e') (v : CV) : e'.getStr v = e.getStr v := by
  cases e with
  | ints m =>
    cases e' with
    | bools m' => exact absurd h id
    | ints m' =>
      unfold Enum.getStr
      cases v.eqInt with
      | none => rfl
      | some i => simp only [Registry.getStr, (h.1 (.id i)).1]
  | bools m =>
    cases e' with
    | ints m' => exact absurd h id
    | bools m' =>
      unfold Enum.getStr
      cases v.eqInt with
      | none => rfl
      | some i => simp only [Registry.getStr, (h.1 (.id false)).1, (h.1 (.id true)).1]

theorem SameEnum.ok {e e' : Enum} (h : SameEnum e e') : Spec.EnumOk e' := by
  cases e <;> cases e' <;> first | exact absurd h id | exact h.2

theorem create_same (rx : Rx) (e : EnumD) (h : EnumFine rx e.enum) :
    ∃ e', EnumD.create rx e.asdict = .ok e' ∧ e'.id = e.id ∧ SameEnum e.enum e'.enum := by
  obtain ⟨id, en⟩ := e
  cases en with
  | ints m =>
    obtain ⟨m', h1, h2, h3⟩ := new_same rx.name h.1 h.2.1 h.2.2
    exact ⟨⟨id, .ints m'⟩, by simp only [EnumD.create, EnumD.asdict, h1, Except.map], rfl, h3, h2⟩
  | bools m =>
    obtain ⟨m', h1, h2, h3⟩ := new_same rx.name h.1 h.2.1 h.2.2
    exact ⟨⟨id, .bools m'⟩, by simp only [EnumD.create, EnumD.asdict, h1, Except.map], rfl, h3, h2⟩

/-- How a loaded enumeration stands to the exported one. -/
def EnumRel (p q : String × EnumD) : Prop := p.1 = q.1 ∧ q.2.id = p.2.id ∧ SameEnum p.2.enum q.2.enum

theorem createAll_same (rx : Rx) (l : List (String × EnumD)) (h : ∀ p ∈ l, EnumFine rx p.2.enum) :
    ∃ es, createAll (EnumD.create rx) (l.map (fun p => (p.1, p.2.asdict))) = .ok es ∧ List.Forall₂ EnumRel l es := by
  induction l with
  | nil => exact ⟨[], rfl, .nil⟩
  | cons p l ih =>
    obtain ⟨es, h1, h2⟩ := ih (fun q hq => h q (List.mem_cons_of_mem _ hq))
    obtain ⟨e', e1, e2, e3⟩ := create_same rx p.2 (h p List.mem_cons_self)
    refine ⟨(p.1, e') :: es, ?_, .cons ⟨rfl, e2, e3⟩ h2⟩
    simp only [List.map_cons, createAll, e1, h1, Except.map]

/-- Related values. -/
inductive OptRel {α β : Type} (R : α → β → Prop) : Option α → Option β → Prop
  | none : OptRel R none none
  | some {a b} : R a b → OptRel R (some a) (some b)

theorem forall₂_dget {α β : Type} {R : α → β → Prop} {l : List (String × α)} {l' : List (String × β)}
    (h : List.Forall₂ (fun p q => p.1 = q.1 ∧ R p.2 q.2) l l') (n : String) : OptRel R (dget l n) (dget l' n) := by
  induction h with
  | nil => exact .none
  | cons hp _ ih =>
    rw [dget_cons, dget_cons, ← hp.1]
    split
    · exact .some hp.2
    · exact ih

theorem forall₂_keys {α β : Type} {R : α → β → Prop} {l : List (String × α)} {l' : List (String × β)}
    (h : List.Forall₂ (fun p q => p.1 = q.1 ∧ R p.2 q.2) l l') : l'.map Prod.fst = l.map Prod.fst := by
  induction h with
  | nil => rfl
  | cons hp _ ih => rw [List.map_cons, List.map_cons, ih, hp.1]

/-! ### Registries -/

/-- A registry and its reloaded copy. -/
theorem reg_same {α β : Type} (v : String → Bool) (idOf : α → Int) (idOf' : β → Int) (r : Reg α) (h : RegOk idOf r)
    (hk : (r.items.map Prod.fst).Nodup) (hn : (r.names.map.reverse.map Prod.fst).Nodup)
    (hv : ∀ n k, r.names.map.identifier (.name n) = some k → v n = true) (items' : List (String × β))
    (hi : items'.map (fun p => (p.1, idOf' p.2)) = r.items.map (fun p => (p.1, idOf p.2))) :
    ∃ r1 r2, Reg.new v idOf' items' = .ok r1 ∧ loadNames v r1 r.names.map.reverse = .ok r2 ∧ r2.items = items'
      ∧ Registry.Spec.Bij r2.names.map ∧ SameMap r.names.map r2.names.map := by
  have hkeys : items'.map Prod.fst = r.items.map Prod.fst := by
    have := congrArg (List.map Prod.fst) hi
    simpa [List.map_map, Function.comp_def] using this
  have hfold : items'.foldl (fun d p => dset d p.1 p.2) [] = items' := by
    have := foldl_dset items' [] (by simpa [hkeys] using hk)
    simpa using this
  -- the identifiers of the items are among the names
  have hpair : ∀ p ∈ (items'.map (fun p => (p.1, idOf' p.2))).map (fun p => (p.2, p.1)),
      p ∈ r.names.map.reverse.map (fun p => (p.2, p.1)) := by
    intro p hp
    rw [hi, List.map_map] at hp
    obtain ⟨q, hq, rfl⟩ := List.mem_map.mp hp
    have := h.ids q.1 q.2 (mem_dget hk hq)
    exact (mem_rev h.bij hn _ _).mpr ((h.bij _ _).mpr this)
  obtain ⟨m1, h1⟩ := C16_construct_accepts v ((items'.map (fun p => (p.1, idOf' p.2))).map (fun p => (p.2, p.1)))
    (Mapping.empty : Mapping Int) bij_empty
    (by
      intro p hp
      have := (mem_rev h.bij hn p.1 p.2).mp (hpair p hp)
      exact hv _ _ ((h.bij _ _).mp this))
    (fun p hp q hq => rev_pairs h.bij hn p q (hpair p hp) (hpair q hq))
    (by intro p _ k n hkn; simp [Mapping.nameOf, Mapping.empty, dget_nil] at hkn)
  obtain ⟨b1, e1⟩ := C16_load v _ _ m1 bij_empty h1
  obtain ⟨m2, h2, b2, s2⟩ := load_same v h.bij hn hv b1 (by
    intro k n hkn
    rcases (e1 k n).mp hkn with h' | h'
    · simp [Mapping.nameOf, Mapping.empty, dget_nil] at h'
    · exact (mem_rev h.bij hn k n).mp (hpair _ h'))
  have hnew : ∃ c, Reg.new v idOf' items' = .ok ⟨items', ⟨m1, c⟩⟩ := by
    refine ⟨m1.mapping.foldl (fun c p => if p.1 ≥ c then p.1 + 1 else c) 1, ?_⟩
    unfold Reg.new NameReg.new Mapping.new
    simp only [hfold, Mapping.load, h1]
  obtain ⟨c, hc⟩ := hnew
  refine ⟨_, ⟨items', ⟨m2, c⟩⟩, hc, ?_, rfl, b2, s2⟩
  unfold loadNames
  simp only [h2]

/-! ### Groups -/

/-- How a loaded group stands to the exported one. -/
def GroupRel (g g' : Bits.Group) : Prop :=
  g'.kind = g.kind ∧ g'.byIndex = g.byIndex ∧ g'.fields = g.fields ∧ g'.finalized = g.finalized
    ∧ Wire.Spec.lo g.kind ≤ g'.raw ∧ g'.raw ≤ Wire.Spec.hi g.kind

theorem wrapped (k : IntKind) (raw : Int) (i w : Nat) (v : Int) :
    Wire.Spec.lo k ≤ (Bits.writeField k raw i w v).1 ∧ (Bits.writeField k raw i w v).1 ≤ Wire.Spec.hi k :=
  (packable_iff k _).mp (Bits.writeField_packable k raw i w v)

/-- A group whose stored integer its primitive can hold. -/
def InRange (g : Bits.Group) : Prop := Wire.Spec.lo g.kind ≤ g.raw ∧ g.raw ≤ Wire.Spec.hi g.kind

theorem pad_range (g g' : Bits.Group) (w i : Nat) (ix : Option Int) (v : Int) (h : g.pad w ix v = (g', .ok i)) :
    InRange g' ∧ g'.kind = g.kind := by
  unfold Bits.Group.pad at h
  cases hc : g.claim w ix with
  | error e => rw [hc] at h; cases h
  | ok r =>
    obtain ⟨g1, j⟩ := r
    rw [hc] at h
    dsimp only at h
    cases h
    have hk : g1.kind = g.kind := by
      obtain ⟨-, -, -, rfl⟩ := Bits.claim_ok hc
      rfl
    exact ⟨wrapped _ _ _ _ _, hk⟩

theorem flag_kind (v : String → Bool) (g g' : Bits.Group) (n : String) (i : Nat) (ix e : Option Int) (c : Bool)
    (h : g.flag v n ix e c = (g', .ok i)) : g'.kind = g.kind := by
  unfold Bits.Group.flag at h
  cases hc : g.claim 1 ix with
  | error e => rw [hc] at h; cases h
  | ok r =>
    obtain ⟨g1, j⟩ := r
    rw [hc] at h
    dsimp only at h
    have hk : g1.kind = g.kind := by
      obtain ⟨-, -, -, rfl⟩ := Bits.claim_ok hc
      rfl
    clear hc
    split at h
    · cases h; exact hk
    · cases h

theorem field_kind (v : String → Bool) (g g' : Bits.Group) (n : String) (w i : Nat) (ix e : Option Int) (c : Bool)
    (h : g.field v n w ix e c = (g', .ok i)) : g'.kind = g.kind := by
  unfold Bits.Group.field at h
  split at h
  · cases h
  · cases hc : g.claim w ix with
    | error e => rw [hc] at h; cases h
    | ok r =>
      obtain ⟨g1, j⟩ := r
      rw [hc] at h
      dsimp only at h
      have hk : g1.kind = g.kind := by
        obtain ⟨-, -, -, rfl⟩ := Bits.claim_ok hc
        rfl
      clear hc
      split at h
      · split at h
        · cases h
        · cases h; exact hk
      · cases h

theorem load_range (v : String → Bool) (g g' : Bits.Group) (e : Bits.Entry) (h : g.load v e = .ok g') :
    InRange g' ∧ g'.kind = g.kind := by
  have hpad : ∀ x, (match g.pad e.width e.index 0 with
      | (g, .ok _) => Except.ok g
      | (_, .error x) => .error x) = Except.ok x → InRange x ∧ x.kind = g.kind := by
    intro x hx
    rcases hp : g.pad e.width e.index 0 with ⟨g1, e1 | i⟩
    · rw [hp] at hx; cases hx
    · rw [hp] at hx
      cases hx
      exact pad_range _ _ _ _ _ _ hp
  unfold Bits.Group.load at h
  split at h
  · split at h
    · cases h
    · split at h
      · cases h
      · exact hpad g' h
  · rename_i name _
    split at h
    · split at h
      · cases h
      · split at h
        · cases h
        · exact hpad g' h
    · split at h
      · rcases hf : g.flag v name e.index e.enum e.commandable with ⟨g1, e1 | i⟩
        · rw [hf] at h; cases h
        · rw [hf] at h
          cases h
          exact ⟨wrapped _ _ _ _ _, flag_kind v g g1 _ _ _ _ _ hf⟩
      · rcases hf : g.field v name e.width e.index e.enum e.commandable with ⟨g1, e1 | i⟩
        · rw [hf] at h; cases h
        · rw [hf] at h
          cases h
          exact ⟨wrapped _ _ _ _ _, field_kind v g g1 _ _ _ _ _ _ hf⟩

theorem loadAll_range (v : String → Bool) (l : List Bits.Entry) (g g' : Bits.Group) (hg : InRange g)
    (h : g.loadAll v l = .ok g') : InRange g' := by
  induction l generalizing g with
  | nil => cases h; exact hg
  | cons e l ih =>
    unfold Bits.Group.loadAll at h
    cases hl : g.load v e with
    | error x => rw [hl] at h; cases h
    | ok g1 => rw [hl] at h; exact ih g1 (load_range v g g1 e hl).1 h

theorem create_range (v : String → Bool) (d : Bits.Data) (g' : Bits.Group) (h : Bits.Group.create v d = .ok g') :
    InRange g' := by
  unfold Bits.Group.create at h
  cases hl : (Bits.Group.new d.kind).loadAll v d.entries with
  | error x => rw [hl] at h; cases h
  | ok g1 =>
    rw [hl] at h
    cases h
    refine loadAll_range v _ _ g1 ?_ hl
    exact (packable_iff d.kind 0).mp (Bits.inv_after v d.kind []).packed

theorem create_group (rx : Rx) (he : rx.field "" = false) (g : Bits.Group)
    (hs : Bits.Solid rx.field g.kind g.byIndex) (hf : g.fields = Bits.fieldsOf g.byIndex) (raw : Int) :
    ∃ g', Bits.Group.create rx.field (Bits.Group.asdict { g with raw := raw }) = .ok g' ∧ GroupRel g g' := by
  obtain ⟨g', h1, h2, h3, h4, h5⟩ := Bits.C15_layout rx.field he { g with raw := raw } hs hf
  have := create_range rx.field _ g' h1
  unfold InRange at this
  rw [h2] at this
  exact ⟨g', h1, h2, h3, h4, h5, this⟩

theorem createGroups_same (rx : Rx) (he : rx.field "" = false) (l : List (Bits.Group × Int))
    (hs : ∀ p ∈ l, Bits.Solid rx.field p.1.kind p.1.byIndex ∧ p.1.fields = Bits.fieldsOf p.1.byIndex) :
    ∃ gs, createGroups rx (l.map (fun p => Bits.Group.asdict { p.1 with raw := p.2 })) = .ok gs
      ∧ List.Forall₂ (fun p g' => GroupRel p.1 g') l gs := by
  induction l with
  | nil => exact ⟨[], rfl, .nil⟩
  | cons p l ih =>
    obtain ⟨gs, h1, h2⟩ := ih (fun q hq => hs q (List.mem_cons_of_mem _ hq))
    obtain ⟨g', e1, e2⟩ := create_group rx he p.1 (hs p List.mem_cons_self).1 (hs p List.mem_cons_self).2 p.2
    refine ⟨g' :: gs, ?_, .cons e2 h2⟩
    simp only [List.map_cons, createGroups, e1, h1, Except.map]

/-! ### Adding groups whose names are known -/

/-- `lookup` after names of the group at index `i`. -/
def addNames (lk : List (String × Nat)) (i : Nat) (ns : List String) : List (String × Nat) :=
  ns.foldl (fun lk n => dset lk n i) lk

/-- `lookup` after groups, the first at index `i`. -/
def lookupFrom (lk : List (String × Nat)) (i : Nat) : List (List String) → List (String × Nat)
  | [] => lk
  | ns :: rest => lookupFrom (addNames lk i ns) (i + 1) rest

theorem addNames_nodup (lk : List (String × Nat)) (i : Nat) (ns : List String) (h : (lk.map Prod.fst).Nodup) :
    ((addNames lk i ns).map Prod.fst).Nodup := by
  induction ns generalizing lk with
  | nil => exact h
  | cons n ns ih => exact ih (dset lk n i) (dset_nodup _ _ _ h)

theorem lookupFrom_nodup (l : List (List String)) (lk : List (String × Nat)) (i : Nat) (h : (lk.map Prod.fst).Nodup) :
    ((lookupFrom lk i l).map Prod.fst).Nodup := by
  induction l generalizing lk i with
  | nil => exact h
  | cons ns l ih => exact ih _ _ (addNames_nodup _ _ _ h)

theorem lookupFrom_append (a b : List (List String)) (lk : List (String × Nat)) (i : Nat) :
    lookupFrom lk i (a ++ b) = lookupFrom (lookupFrom lk i a) (i + a.length) b := by
  induction a generalizing lk i with
  | nil => rfl
  | cons ns a ih =>
    rw [List.cons_append, lookupFrom, lookupFrom, ih, List.length_cons]
    congr 1
    omega

theorem register_known (v : String → Bool) (r : NameReg) (n : String) (k : Int)
    (h : r.map.identifier (.name n) = some k) : r.register v n none = (r, .ok (some k)) := by
  unfold NameReg.register
  rw [h]
  simp

theorem register_fields (rx : Rx) (L : Live) (i : Nat) (fs : List (String × Bits.Field))
    (hk : ∀ p ∈ fs, (L.chans.names.map.identifier (.name p.1)).isSome)
    (he : ∀ p ∈ fs, ∀ e, p.2.enum = some e → (L.enums.get (.id e)).isSome) :
    L.register rx i fs = ({ L with lookup := addNames L.lookup i (fs.map Prod.fst) }, .ok ()) := by
  induction fs generalizing L with
  | nil => rfl
  | cons p fs ih =>
    obtain ⟨n, f⟩ := p
    obtain ⟨k, hn⟩ := Option.isSome_iff_exists.mp (hk (n, f) List.mem_cons_self)
    have ih := ih { L with lookup := dset L.lookup n i } (fun p hp => hk p (List.mem_cons_of_mem _ hp))
      (fun p hp => he p (List.mem_cons_of_mem _ hp))
    unfold Live.register
    simp only [register_known rx.chan _ n k hn]
    cases hf : f.enum with
    | none => exact ih
    | some e =>
      obtain ⟨x, hx⟩ := Option.isSome_iff_exists.mp (he (n, f) List.mem_cons_self e hf)
      have hx' : L.enums.getItem (.id e) = .ok x := by unfold Reg.getItem; rw [hx]
      simp only [hx']
      exact ih

/-- The static part of a group and its primitive. -/
def SameGroup (a b : Bits.Group × Nat) : Prop :=
  b.1.kind = a.1.kind ∧ b.1.byIndex = a.1.byIndex ∧ b.1.fields = a.1.fields ∧ b.2 = a.2

theorem add_known (rx : Rx) (L : Live) (os : List Nat)
    (hk : ∀ o ∈ os, ∀ p ∈ (L.group o).1.fields, (L.chans.names.map.identifier (.name p.1)).isSome)
    (he : ∀ o ∈ os, ∀ p ∈ (L.group o).1.fields, ∀ e, p.2.enum = some e → (L.enums.get (.id e)).isSome) :
    ∃ L', L.addAll rx os = (L', .ok ()) ∧ L'.chans = L.chans ∧ L'.enums = L.enums ∧ L'.prim = L.prim
      ∧ L'.toAdd = L.toAdd ∧ L'.groups = L.groups ++ os
      ∧ L'.lookup = lookupFrom L.lookup L.groups.length (os.map (fun o => (L.group o).1.fields.map Prod.fst))
      ∧ ∀ j, SameGroup (L.group j) (L'.group j) := by
  induction os generalizing L with
  | nil => exact ⟨L, rfl, rfl, rfl, rfl, rfl, by simp, rfl, fun j => ⟨rfl, rfl, rfl, rfl⟩⟩
  | cons o os ih =>
    let G : Nat → Bits.Group × Nat := fun j => if j = o then ((L.group o).1.finalize, (L.group o).2) else L.group j
    have hG : ∀ j, SameGroup (L.group j) (G j) := by
      intro j
      by_cases hj : j = o
      · subst hj; simp only [G, if_pos rfl]; exact ⟨rfl, rfl, rfl, rfl⟩
      · simp only [G, if_neg hj]; exact ⟨rfl, rfl, rfl, rfl⟩
    have hadd : L.add rx o = (⟨L.chans, L.enums, G, L.groups ++ [o],
        addNames L.lookup L.groups.length ((L.group o).1.fields.map Prod.fst), L.toAdd, L.prim⟩, .ok ()) := by
      unfold Live.add
      dsimp only
      rw [register_fields]
      · exact hk o List.mem_cons_self
      · exact he o List.mem_cons_self
    obtain ⟨L', h1, h2, h3, h4, h5, h6, h7, h8⟩ := ih ⟨L.chans, L.enums, G, L.groups ++ [o],
        addNames L.lookup L.groups.length ((L.group o).1.fields.map Prod.fst), L.toAdd, L.prim⟩
      (fun x hx p hp => hk x (List.mem_cons_of_mem _ hx) p ((hG x).2.2.1 ▸ hp))
      (fun x hx p hp => he x (List.mem_cons_of_mem _ hx) p ((hG x).2.2.1 ▸ hp))
    refine ⟨L', ?_, h2, h3, h4, h5, ?_, ?_, ?_⟩
    · unfold Live.addAll
      simp only [hadd]
      exact h1
    · rw [h6]; simp
    · rw [h7, List.map_cons, lookupFrom]
      have : os.map (fun o => (G o).1.fields.map Prod.fst) = os.map (fun o => (L.group o).1.fields.map Prod.fst) :=
        List.map_congr_left (fun x _ => by rw [(hG x).2.2.1])
      simp only [List.length_append, List.length_cons, List.length_nil, this]
    · intro j
      obtain ⟨a1, a2, a3, a4⟩ := hG j
      obtain ⟨b1, b2, b3, b4⟩ := h8 j
      exact ⟨b1.trans a1, b2.trans a2, b3.trans a3, b4.trans a4⟩

end Verif.Environment
