import Verif.Env.LoadLemmas
import Mathlib.Data.List.Induction
/-! C68: a loaded environment is the exported one. -/
namespace Verif.Environment

open Verif.Wire Verif.Registry

/-! ### Environments that can be exported and loaded -/

/-- A name registry as registration leaves it. -/
structure NamesOk (v : String → Bool) (m : Mapping Int) : Prop where
  bij : Registry.Spec.Bij m
  keys : (m.reverse.map Prod.fst).Nodup
  valid : ∀ n k, m.identifier (.name n) = some k → v n = true

/-- A group whose exported data describes it, on an integer primitive of its type. -/
structure Fine (rx : Rx) (L : Live) (o : Nat) : Prop where
  solid : Bits.Solid rx.field (L.group o).1.kind (L.group o).1.byIndex
  fields : (L.group o).1.fields = Bits.fieldsOf (L.group o).1.byIndex
  prim : (L.prim (L.group o).2).kind = .int (L.group o).1.kind

/-- What the fields of a group refer to is there. -/
structure Known (L : Live) (o : Nat) : Prop where
  names : ∀ p ∈ (L.group o).1.fields, (L.chans.names.map.identifier (.name p.1)).isSome
  enums : ∀ p ∈ (L.group o).1.fields, ∀ e, p.2.enum = some e → (L.enums.get (.id e)).isSome

/-- An environment as successful calls build it (`clean_step`). -/
structure Clean (rx : Rx) (sem : Sem) (L : Live) : Prop where
  names : NamesOk rx.chan L.chans.names.map
  items : (L.chans.items.map Prod.fst).Nodup
  ids : ∀ n x, dget L.chans.items n = some x → L.chans.names.map.identifier (.name n) = some x.1.id
  kinds : ∀ p ∈ L.chans.items, (L.prim p.2.2).kind = p.2.1.kind
  defaults : ∀ p ∈ L.chans.items, Spec.Fits sem p.2.1.kind p.2.1.initial
  chanEnums : ∀ p ∈ L.chans.items, ∀ k, p.2.1.enum = some k → (L.enums.get k).isSome
  enumNames : NamesOk rx.name L.enums.names.map
  enumItems : (L.enums.items.map Prod.fst).Nodup
  enumIds : ∀ n x, dget L.enums.items n = some x → L.enums.names.map.identifier (.name n) = some x.id
  members : ∀ p ∈ L.enums.items, EnumFine rx p.2.enum
  fine : ∀ o ∈ L.groups, Fine rx L o
  known : ∀ o ∈ L.groups, Known L o
  lookup : L.lookup = lookupFrom [] 0 (L.groups.map (fun o => (L.group o).1.fields.map Prod.fst))
  later : ∀ o ∈ L.toAdd, Fine rx L o

/-! ### Adding a group keeps an environment clean -/

theorem identifier_isSome_mono {m m' : Mapping Int} (h : ∀ n k, m.identifier (.name n) = some k → m'.identifier (.name n) = some k)
    {n : String} (hn : (m.identifier (.name n)).isSome) : (m'.identifier (.name n)).isSome := by
  obtain ⟨k, hk⟩ := Option.isSome_iff_exists.mp hn
  rw [h n k hk]; rfl

theorem register_names (v : String → Bool) (r : NameReg) (h : NamesOk v r.map) (n : String) :
    NamesOk v (r.register v n none).1.map
    ∧ (∀ m k, r.map.identifier (.name m) = some k → (r.register v n none).1.map.identifier (.name m) = some k)
    ∧ (∀ k, (r.register v n none).2 = .ok (some k) → (r.register v n none).1.map.identifier (.name n) = some k) := by
  obtain ⟨-, b, e, -⟩ := C17_register v r h.bij n none
  have hid : ∀ m k, (r.register v n none).1.map.identifier (.name m) = some k ↔
      (r.map.identifier (.name m) = some k ∨ ((r.register v n none).2 = .ok (some k) ∧ m = n)) := by
    intro m k
    rw [← b k m, e, h.bij k m]
  refine ⟨⟨b, ?_, ?_⟩, fun m k hm => (hid m k).mpr (.inl hm), fun k hk => (hid n k).mpr (.inr ⟨hk, rfl⟩)⟩
  · -- the names stay a dictionary
    unfold NameReg.register
    cases hn : r.map.identifier (.name n) with
    | some c => simp only [reduceCtorEq, or_false, if_true, true_or]; exact h.keys
    | none =>
      dsimp only
      split
      · split
        · exact h.keys
        · rename_i hv hfree
          have h2 : dget r.map.reverse n = none := hn
          have hfree : dget r.map.mapping (nextFree r.map.mapping r.map.mapping.length r.current) = none := by
            cases hd : dget r.map.mapping (nextFree r.map.mapping r.map.mapping.length r.current) with
            | none => rfl
            | some x => exact absurd (by rw [hd]; rfl) hfree
          rw [set_new v r.map _ n hv hfree h2]
          exact dset_nodup _ _ _ h.keys
      · exact h.keys
  · intro m k hm
    rcases (hid m k).mp hm with hm | ⟨hr, rfl⟩
    · exact h.valid m k hm
    · unfold NameReg.register at hr
      cases hn : r.map.identifier (.name m) with
      | some c => exact h.valid m c hn
      | none =>
        rw [hn] at hr
        dsimp only at hr
        by_cases hv : v m = true
        · exact hv
        · rw [if_neg hv] at hr
          cases hr

/-- What a successful round of registering a group's fields did. -/
theorem register_ok (rx : Rx) (i : Nat) (fs : List (String × Bits.Field)) (L L' : Live)
    (hn : NamesOk rx.chan L.chans.names.map) (h : L.register rx i fs = (L', .ok ())) :
    L'.chans.items = L.chans.items ∧ L'.enums = L.enums ∧ L'.group = L.group ∧ L'.groups = L.groups
      ∧ L'.toAdd = L.toAdd ∧ L'.prim = L.prim ∧ L'.lookup = addNames L.lookup i (fs.map Prod.fst)
      ∧ NamesOk rx.chan L'.chans.names.map
      ∧ (∀ n k, L.chans.names.map.identifier (.name n) = some k → L'.chans.names.map.identifier (.name n) = some k)
      ∧ (∀ p ∈ fs, (L'.chans.names.map.identifier (.name p.1)).isSome)
      ∧ (∀ p ∈ fs, ∀ e, p.2.enum = some e → (L.enums.get (.id e)).isSome) := by
  induction fs generalizing L with
  | nil =>
    cases h
    exact ⟨rfl, rfl, rfl, rfl, rfl, rfl, rfl, hn, fun _ _ h => h, fun p hp => (by cases hp), fun p hp => (by cases hp)⟩
  | cons p fs ih =>
    obtain ⟨n, f⟩ := p
    unfold Live.register at h
    obtain ⟨r1, r2, r3⟩ := register_names rx.chan L.chans.names hn n
    rcases hreg : L.chans.names.register rx.chan n none with ⟨nr, e | _ | k⟩
    · rw [hreg] at h; cases h
    · rw [hreg] at h; cases h
    · rw [hreg] at h r1 r2 r3
      dsimp only at h r1 r2 r3
      have hstep : Live.register rx { L with chans := ⟨L.chans.items, nr⟩, lookup := dset L.lookup n i } i fs = (L', .ok ())
          ∧ (∀ e, f.enum = some e → (L.enums.get (.id e)).isSome) := by
        cases hf : f.enum with
        | none =>
          rw [hf] at h
          exact ⟨h, fun e he => by cases he⟩
        | some e =>
          rw [hf] at h
          dsimp only at h
          cases hg : L.enums.getItem (.id e) with
          | error x => rw [hg] at h; cases h
          | ok x =>
            rw [hg] at h
            refine ⟨h, fun e' he' => ?_⟩
            cases he'
            unfold Reg.getItem at hg
            cases hget : L.enums.get (.id e) with
            | none => rw [hget] at hg; cases hg
            | some y => rfl
      obtain ⟨hrest, hen⟩ := hstep
      obtain ⟨a1, a2, a3, a4, a5, a6, a7, a8, a9, a10, a11⟩ := ih _ (by exact r1) hrest
      refine ⟨a1, a2, a3, a4, a5, a6, a7, a8, fun m k' hm => a9 m k' (r2 m k' hm), ?_, ?_⟩
      · intro p hp
        rcases List.mem_cons.mp hp with rfl | hp
        · rw [a9 _ _ (r3 k rfl)]; rfl
        · exact a10 p hp
      · intro p hp e he
        rcases List.mem_cons.mp hp with rfl | hp
        · exact hen e he
        · exact a11 p hp e he

theorem clean_add (rx : Rx) (sem : Sem) (L L' : Live) (o : Nat) (hc : Clean rx sem L) (ho : Fine rx L o)
    (h : L.add rx o = (L', .ok ())) : Clean rx sem L' ∧ L'.toAdd = L.toAdd ∧ L'.groups = L.groups ++ [o]
      ∧ (∀ j, SameGroup (L.group j) (L'.group j)) ∧ L'.prim = L.prim ∧ L'.chans.items = L.chans.items
      ∧ L'.enums = L.enums := by
  unfold Live.add at h
  dsimp only at h
  obtain ⟨a1, a2, a3, a4, a5, a6, a7, a8, a9, a10, a11⟩ := register_ok rx _ _ _ L' (by exact hc.names) h
  have hG : ∀ j, SameGroup (L.group j) (L'.group j) := by
    intro j
    rw [a3]
    dsimp only
    by_cases hj : j = o
    · subst hj; rw [if_pos rfl]; exact ⟨rfl, rfl, rfl, rfl⟩
    · rw [if_neg hj]; exact ⟨rfl, rfl, rfl, rfl⟩
  have hfine : ∀ j, Fine rx L j → Fine rx L' j := by
    intro j hf
    obtain ⟨g1, g2, g3, g4⟩ := hG j
    exact ⟨by rw [g1, g2]; exact hf.solid, by rw [g2, g3]; exact hf.fields, by rw [a6, g1, g4]; exact hf.prim⟩
  have hknown : ∀ j, Known L j → Known L' j := by
    intro j hk
    obtain ⟨-, -, g3, -⟩ := hG j
    refine ⟨?_, ?_⟩
    · rw [g3]; exact fun p hp => identifier_isSome_mono a9 (hk.names p hp)
    · rw [g3, a2]; exact hk.enums
  have hmap : ∀ l : List Nat, l.map (fun o => (L'.group o).1.fields.map Prod.fst)
      = l.map (fun o => (L.group o).1.fields.map Prod.fst) :=
    fun l => List.map_congr_left (fun x _ => by rw [(hG x).2.2.1])
  refine ⟨⟨a8, ?_, ?_, ?_, ?_, ?_, ?_, ?_, ?_, ?_, ?_, ?_, ?_, ?_⟩, a5, a4, hG, a6, a1, a2⟩
  · rw [a1]; exact hc.items
  · rw [a1]; exact fun n x hx => a9 n _ (hc.ids n x hx)
  · rw [a1, a6]; exact hc.kinds
  · rw [a1]; exact hc.defaults
  · rw [a1, a2]; exact hc.chanEnums
  · rw [a2]; exact hc.enumNames
  · rw [a2]; exact hc.enumItems
  · rw [a2]; exact hc.enumIds
  · rw [a2]; exact hc.members
  · rw [a4]
    intro j hj
    rcases List.mem_append.mp hj with hj | hj
    · exact hfine j (hc.fine j hj)
    · rw [List.mem_singleton.mp hj]; exact hfine o ho
  · rw [a4]
    intro j hj
    rcases List.mem_append.mp hj with hj | hj
    · exact hknown j (hc.known j hj)
    · rw [List.mem_singleton.mp hj]
      refine ⟨?_, ?_⟩
      · rw [(hG o).2.2.1]; exact a10
      · rw [(hG o).2.2.1, a2]; exact a11
  · rw [a7, a4, hmap, List.map_append, lookupFrom_append, ← hc.lookup]
    simp [lookupFrom]
  · rw [a5]; exact fun j hj => hfine j (hc.later j hj)

theorem clean_addAll (rx : Rx) (sem : Sem) (os : List Nat) (L L' : Live) (hc : Clean rx sem L)
    (ho : ∀ o ∈ os, Fine rx L o) (h : L.addAll rx os = (L', .ok ())) :
    Clean rx sem L' ∧ L'.toAdd = L.toAdd ∧ L'.groups = L.groups ++ os
      ∧ (∀ j, SameGroup (L.group j) (L'.group j)) ∧ L'.prim = L.prim ∧ L'.chans.items = L.chans.items
      ∧ L'.enums = L.enums := by
  induction os generalizing L with
  | nil => cases h; exact ⟨hc, rfl, by simp, fun j => ⟨rfl, rfl, rfl, rfl⟩, rfl, rfl, rfl⟩
  | cons o os ih =>
    unfold Live.addAll at h
    rcases hadd : L.add rx o with ⟨L1, e | ⟨⟩⟩
    · rw [hadd] at h; cases h
    · rw [hadd] at h
      dsimp only at h
      obtain ⟨c1, c2, c3, c4, c5, c6, c7⟩ := clean_add rx sem L L1 o hc (ho o List.mem_cons_self) hadd
      have hfine : ∀ x ∈ os, Fine rx L1 x := by
        intro x hx
        have hf := ho x (List.mem_cons_of_mem _ hx)
        obtain ⟨g1, g2, g3, g4⟩ := c4 x
        exact ⟨by rw [g1, g2]; exact hf.solid, by rw [g2, g3]; exact hf.fields, by rw [c5, g1, g4]; exact hf.prim⟩
      obtain ⟨d1, d2, d3, d4, d5, d6, d7⟩ := ih L1 c1 hfine h
      refine ⟨d1, d2.trans c2, by rw [d3, c3]; simp, ?_, d5.trans c5, d6.trans c6, d7.trans c7⟩
      intro j
      obtain ⟨x1, x2, x3, x4⟩ := c4 j
      obtain ⟨y1, y2, y3, y4⟩ := d4 j
      exact ⟨y1.trans x1, y2.trans x2, y3.trans x3, y4.trans x4⟩

/-! ### Two environments with the same contents -/

/-- Channels that read and resolve the same. -/
structure ChanRel (E : Env) (σ : State) (E' : Env) (μ : State) (c c' : Chan) : Prop where
  enum : OptRel SameEnum c.enum c'.enum
  commandable : c'.commandable = c.commandable
  prim : E'.prim c'.slot = E.prim c.slot
  value : μ c'.slot = σ c.slot

/-- Fields that read and resolve the same. -/
structure FieldRel (E : Env) (σ : State) (E' : Env) (μ : State) (f f' : FieldE) : Prop where
  enum : OptRel SameEnum f.enum f'.enum
  commandable : f'.commandable = f.commandable
  index : f'.index = f.index
  width : f'.width = f.width
  prim : (E'.prim f'.slot).kind = (E.prim f.slot).kind
  value : μ f'.slot = σ f.slot

/-- The same names with the same channels and fields. -/
structure Mirror (E : Env) (σ : State) (E' : Env) (μ : State) : Prop where
  names : SameMap E.names E'.names
  chans : ∀ n, OptRel (ChanRel E σ E' μ) (dget E.chans n) (dget E'.chans n)
  fields : ∀ n, OptRel (FieldRel E σ E' μ) (dget E.fields n) (dget E'.fields n)

theorem OptRel.none_iff {α β : Type} {R : α → β → Prop} {a : Option α} {b : Option β} (h : OptRel R a b) :
    a = .none ↔ b = .none := by
  cases h <;> simp

theorem OptRel.right {α β : Type} {R : α → β → Prop} {a : Option α} {y : β} (h : OptRel R a (.some y)) :
    ∃ x, a = .some x ∧ R x y := by
  cases h with
  | some h => exact ⟨_, rfl, h⟩

theorem OptRel.left {α β : Type} {R : α → β → Prop} {x : α} {b : Option β} (h : OptRel R (.some x) b) :
    ∃ y, b = .some y ∧ R x y := by
  cases h with
  | some h => exact ⟨_, rfl, h⟩

/-- What a key stands for in both. -/
inductive TargetRel (E : Env) (σ : State) (E' : Env) (μ : State) : Target → Target → Prop
  | chan {c c' : Chan} : ChanRel E σ E' μ c c' → TargetRel E σ E' μ (.chan c) (.chan c')
  | field {f f' : FieldE} : FieldRel E σ E' μ f f' → TargetRel E σ E' μ (.field f) (.field f')

theorem Mirror.target {E : Env} {σ : State} {E' : Env} {μ : State} (h : Mirror E σ E' μ) (key : Key Int) :
    OptRel (TargetRel E σ E' μ) (E.target key) (E'.target key) := by
  unfold Env.target Env.getField Env.getChan
  rw [(h.names key).1]
  cases E.names.nameOf key with
  | none => exact .none
  | some n =>
    simp only [Option.bind_some]
    have h1 := h.fields n
    have h2 := h.chans n
    cases hf : dget E.fields n with
    | some f =>
      rw [hf] at h1
      obtain ⟨f', e, r⟩ := h1.left
      rw [e]
      exact .some (.field r)
    | none =>
      rw [hf] at h1
      rw [h1.none_iff.mp rfl]
      cases hc : dget E.chans n with
      | none => rw [hc] at h2; rw [h2.none_iff.mp rfl]; exact .none
      | some c =>
        rw [hc] at h2
        obtain ⟨c', e, r⟩ := h2.left
        rw [e]
        exact .some (.chan r)

theorem Mirror.value {E : Env} {σ : State} {E' : Env} {μ : State} (h : Mirror E σ E' μ) (key : Key Int) (r s : Bool) :
    E'.value μ key r s = E.value σ key r s := by
  have ht := h.target key
  unfold Env.value
  cases hk : E.target key with
  | none => rw [hk] at ht; rw [ht.none_iff.mp rfl]
  | some t =>
    rw [hk] at ht
    obtain ⟨t', e, hr⟩ := ht.left
    rw [e]
    cases hr with
    | chan hc =>
      rename_i c c'
      simp only [getChanValue, hc.prim, hc.value]
      have he := hc.enum
      cases h1 : c.enum with
      | none => rw [h1] at he; rw [he.none_iff.mp rfl]
      | some x =>
        rw [h1] at he
        obtain ⟨y, e2, hs⟩ := he.left
        rw [e2]
        cases r
        · rfl
        · simp only [hs.getStr]
    | field hf =>
      rename_i f f'
      simp only [getFieldValue, hf.value, hf.index, hf.width]
      have he := hf.enum
      cases h1 : f.enum with
      | none => rw [h1] at he; rw [he.none_iff.mp rfl]
      | some x =>
        rw [h1] at he
        obtain ⟨y, e2, hs⟩ := he.left
        rw [e2]
        cases r
        · rfl
        · simp only [hs.getStr]

/-! ### The new primitives -/

theorem cell_chan {items : List (String × (ChanD × Nat))} {gs : List Bits.Group} {j : Nat} {p : String × (ChanD × Nat)}
    (h : items[j]? = some p) :
    cellAt (cells (items.map (fun p => (p.1, p.2.1))) gs) j = (p.2.1.kind, p.2.1.initial) := by
  have hj : j < items.length := by
    by_contra hn
    rw [List.getElem?_eq_none (by omega)] at h
    cases h
  unfold cellAt cells
  rw [List.getElem?_append_left (by simpa using hj)]
  simp [h]

theorem cell_group {items : List (String × (ChanD × Nat))} {gs : List Bits.Group} {i : Nat} {g : Bits.Group}
    (h : gs[i]? = some g) :
    cellAt (cells (items.map (fun p => (p.1, p.2.1))) gs) (items.length + i) = (.int g.kind, .int g.raw) := by
  unfold cellAt cells
  rw [List.getElem?_append_right (by simp)]
  simp [h]

theorem cell_other {items : List (String × (ChanD × Nat))} {gs : List Bits.Group} {j : Nat}
    (h : items.length + gs.length ≤ j) :
    cellAt (cells (items.map (fun p => (p.1, p.2.1))) gs) j = (.bool, .bool false) := by
  unfold cellAt cells
  rw [List.getElem?_eq_none (by simpa using h)]
  rfl

/-- The exported values on the new primitives. -/
def Live.mirror (L : Live) (σ : State) : State := fun j =>
  match L.chans.items[j]? with
  | some p => σ p.2.2
  | none =>
    match L.groups[j - L.chans.items.length]? with
    | some o => σ (L.group o).2
    | none => .bool false

theorem mirror_chan {L : Live} {σ : State} {j : Nat} {p : String × (ChanD × Nat)} (h : L.chans.items[j]? = some p) :
    L.mirror σ j = σ p.2.2 := by
  unfold Live.mirror
  rw [h]

theorem mirror_group {L : Live} {σ : State} {i o : Nat} (h : L.groups[i]? = some o) :
    L.mirror σ (L.chans.items.length + i) = σ (L.group o).2 := by
  unfold Live.mirror
  rw [List.getElem?_eq_none (by omega), Nat.add_sub_cancel_left, h]

theorem mirror_other {L : Live} {σ : State} {j : Nat} (h : L.chans.items.length + L.groups.length ≤ j) :
    L.mirror σ j = .bool false := by
  unfold Live.mirror
  rw [List.getElem?_eq_none (by omega), List.getElem?_eq_none (by omega)]

/-- Every primitive of a loaded environment. -/
theorem cell_cases (n m j : Nat) : j < n ∨ (∃ i, i < m ∧ j = n + i) ∨ n + m ≤ j := by
  by_cases h1 : j < n
  · exact .inl h1
  · by_cases h2 : j < n + m
    · exact .inr (.inl ⟨j - n, by omega, by omega⟩)
    · exact .inr (.inr (by omega))

theorem forall₂_getElem? {α β : Type} {R : α → β → Prop} {l : List α} {l' : List β} (h : List.Forall₂ R l l') (i : Nat) :
    OptRel R l[i]? l'[i]? := by
  induction h generalizing i with
  | nil => exact .none
  | cons hr _ ih =>
    cases i with
    | zero => exact .some hr
    | succ i => simpa using ih i

theorem forall₂_mapIdx {α β : Type} {R : α → β → Prop} (f : Nat → α → β) (l : List α)
    (h : ∀ i a, l[i]? = some a → R a (f i a)) : List.Forall₂ R l (l.mapIdx f) := by
  induction l generalizing f with
  | nil => simp
  | cons a l ih =>
    rw [List.mapIdx_cons]
    exact .cons (h 0 a rfl) (ih _ (fun i b hb => h (i + 1) b (by simpa using hb)))

/-! ### Loading -/

/-- The exported dictionary of an environment. -/
def Live.doc (L : Live) (σ : State) (values : List (String × CV)) : Doc :=
  { channels := L.chans.items.map (fun p => (p.1, p.2.1))
    enums := L.enums.items.map (fun p => (p.1, p.2.asdict))
    fields := L.groups.map (fun o => Bits.Group.asdict { (L.group o).1 with raw := (σ (L.group o).2).raw })
    chanNames := L.chans.names.map.reverse
    enumNames := L.enums.names.map.reverse
    values := values }

/-- A loaded environment has what the exported one had. -/
structure Same (L L' : Live) : Prop where
  names : SameMap L.chans.names.map L'.chans.names.map
  chans : L'.chans.items.map (fun p => (p.1, p.2.1)) = L.chans.items.map (fun p => (p.1, p.2.1))
  enumNames : SameMap L.enums.names.map L'.enums.names.map
  enums : List.Forall₂ EnumRel L.enums.items L'.enums.items
  groups : List.Forall₂ (fun o o' => (L'.group o').1.kind = (L.group o).1.kind
    ∧ (L'.group o').1.byIndex = (L.group o).1.byIndex ∧ (L'.group o').1.fields = (L.group o).1.fields) L.groups L'.groups
  lookup : L'.lookup = L.lookup

theorem get_same {L : Live} {enums' : Reg EnumD} (hn : SameMap L.enums.names.map enums'.names.map)
    (he : List.Forall₂ EnumRel L.enums.items enums'.items) (k : Key Int) :
    OptRel (fun (e e' : EnumD) => e'.id = e.id ∧ SameEnum e.enum e'.enum) (L.enums.get k) (enums'.get k) := by
  unfold Reg.get
  rw [(hn k).1]
  cases L.enums.names.map.nameOf k with
  | none => exact .none
  | some n => exact forall₂_dget (R := fun (e e' : EnumD) => e'.id = e.id ∧ SameEnum e.enum e'.enum) he n

theorem OptRel.isSome {α β : Type} {R : α → β → Prop} {a : Option α} {b : Option β} (h : OptRel R a b) :
    b.isSome = a.isSome := by
  cases h <;> rfl

theorem enumOf_same {L L' : Live} (hn : SameMap L.enums.names.map L'.enums.names.map)
    (he : List.Forall₂ EnumRel L.enums.items L'.enums.items) (k : Key Int) :
    OptRel SameEnum (L.enumOf k) (L'.enumOf k) := by
  unfold Live.enumOf
  have h := get_same (enums' := L'.enums) hn he k
  generalize L.enums.get k = a at h
  generalize L'.enums.get k = b at h
  cases h with
  | none => exact .none
  | some h => exact .some h.2

/-- The fields of a group are inside its primitive. -/
theorem fieldsOf_mem (items : List (Nat × Bits.Item)) {n : String} {f : Bits.Field}
    (h : (n, f) ∈ Bits.fieldsOf items) : ∃ i, (i, Bits.Item.field f) ∈ items := by
  induction items using List.reverseRecOn with
  | nil => cases h
  | append_singleton a p ih =>
    obtain ⟨i, it⟩ := p
    cases it with
    | pad w v =>
      rw [Bits.fieldsOf_pad] at h
      obtain ⟨j, hj⟩ := ih h
      exact ⟨j, List.mem_append_left _ hj⟩
    | field g =>
      rw [Bits.fieldsOf_field] at h
      rcases mem_dset h with h | h
      · obtain ⟨j, hj⟩ := ih h
        exact ⟨j, List.mem_append_left _ hj⟩
      · cases h
        exact ⟨i, by simp⟩

theorem fieldsOf_inside {v : String → Bool} {k : IntKind} {items : List (Nat × Bits.Item)} (hs : Bits.Solid v k items)
    {n : String} {f : Bits.Field} (h : (n, f) ∈ Bits.fieldsOf items) : f.index + f.width ≤ k.bits := by
  obtain ⟨i, hi⟩ := fieldsOf_mem items h
  have := (hs.inside _ hi).2
  rw [(hs.field i f hi).1]
  exact this

/-- What `load` needs of an environment so that nothing is lost. -/
structure Plain (L : Live) : Prop where
  scaling : ∀ p ∈ L.chans.items, (L.prim p.2.2).scaling = []
  enum : ∀ p ∈ L.chans.items, p.2.1.kind = .bool → ∀ k m, p.2.1.enum = some k → L.enumOf k ≠ some (.ints m)

/-- The same bits, the same enumeration, commandable as before. -/
structure SameField (f f' : FieldE) : Prop where
  index : f'.index = f.index
  width : f'.width = f.width
  commandable : f'.commandable = f.commandable
  enum : OptRel SameEnum f.enum f'.enum

theorem OptRel.imp {α β : Type} {R S : α → β → Prop} {a : Option α} {b : Option β} (h : OptRel R a b)
    (hi : ∀ x y, R x y → S x y) : OptRel S a b := by
  cases h with
  | none => exact .none
  | some h => exact .some (hi _ _ h)

theorem load_doc (rx : Rx) (hrx : rx.field "" = false) (sem : Sem) (hi : Spec.Idem sem) (L : Live) (hc : Clean rx sem L)
    (hp : Plain L) (σ : State) (hσ : Spec.Typed sem L.env σ) (r : Bool) (values : List (String × CV))
    (hv : L.env.values σ r = .ok values) :
    ∃ L' σ', (L.doc σ values).load rx sem = .ok (L', σ') ∧ Same L L' ∧
      (∀ n, OptRel SameField (dget L.env.fields n) (dget L'.env.fields n)) ∧
      ∀ key, L.env.value σ key r true ≠ .ok (.num none) →
        ∀ r' s', L'.env.value σ' key r' s' = L.env.value σ key r' s' := by
  -- the registries
  let items' : List (String × (ChanD × Nat)) := (L.doc σ values).channels.mapIdx (fun j p => (p.1, (p.2, j)))
  have hitems : items' = L.chans.items.mapIdx (fun j p => (p.1, (p.2.1, j))) := by
    show (L.chans.items.map _).mapIdx _ = _
    apply List.ext_getElem?
    intro i
    simp only [List.getElem?_mapIdx, List.getElem?_map, Option.map_map, Function.comp_def]
  have hchans : List.Forall₂ (fun (p q : String × (ChanD × Nat)) => p.1 = q.1 ∧ q.2.1 = p.2.1 ∧
      L.chans.items[q.2.2]? = some p) L.chans.items items' := by
    rw [hitems]
    exact forall₂_mapIdx _ _ (fun i a h => ⟨rfl, rfl, h⟩)
  have hids : items'.map (fun p => (p.1, p.2.1.id)) = L.chans.items.map (fun p => (p.1, p.2.1.id)) := by
    have : ∀ (l l' : List (String × (ChanD × Nat))), List.Forall₂ (fun p q => p.1 = q.1 ∧ q.2.1 = p.2.1 ∧
        L.chans.items[q.2.2]? = some p) l l' → l'.map (fun p => (p.1, p.2.1.id)) = l.map (fun p => (p.1, p.2.1.id)) := by
      intro l l' h
      induction h with
      | nil => rfl
      | cons h _ ih => rw [List.map_cons, List.map_cons, ih, h.1, h.2.1]
    exact this _ _ hchans
  obtain ⟨c1, c2, hc1, hc2, hc3, hc4, hc5⟩ := reg_same rx.chan (fun c : ChanD × Nat => c.1.id)
    (fun c : ChanD × Nat => c.1.id) L.chans ⟨hc.names.bij, hc.ids⟩ hc.items hc.names.keys hc.names.valid items' hids
  obtain ⟨es, he1, he2⟩ := createAll_same rx L.enums.items hc.members
  have heids : es.map (fun p => (p.1, p.2.id)) = L.enums.items.map (fun p => (p.1, p.2.id)) := by
    have : ∀ (l l' : List (String × EnumD)), List.Forall₂ EnumRel l l' →
        l'.map (fun p => (p.1, p.2.id)) = l.map (fun p => (p.1, p.2.id)) := by
      intro l l' h
      induction h with
      | nil => rfl
      | cons h _ ih => rw [List.map_cons, List.map_cons, ih, h.1, h.2.1]
    exact this _ _ he2
  obtain ⟨e1, e2, hr1, hr2, hr3, hr4, hr5⟩ := reg_same rx.name EnumD.id EnumD.id L.enums
    ⟨hc.enumNames.bij, hc.enumIds⟩ hc.enumItems hc.enumNames.keys hc.enumNames.valid es heids
  -- the groups
  obtain ⟨gs, hg1, hg2⟩ := createGroups_same rx hrx (L.groups.map (fun o => ((L.group o).1, (σ (L.group o).2).raw)))
    (by
      intro p hp
      obtain ⟨o, ho, rfl⟩ := List.mem_map.mp hp
      exact ⟨(hc.fine o ho).solid, (hc.fine o ho).fields⟩)
  rw [List.map_map] at hg1
  have hgs : ∀ (i o : Nat), L.groups[i]? = some o → ∃ g', gs[i]? = some g' ∧ GroupRel (L.group o).1 g' := by
    intro i o ho
    have := forall₂_getElem? hg2 i
    rw [List.getElem?_map, ho] at this
    exact this.left
  have hlen : gs.length = L.groups.length := by
    have := hg2.length_eq
    simpa using this.symm
  have hes' : List.Forall₂ EnumRel L.enums.items e2.items := by rw [hr3]; exact he2
  have hgetS : ∀ k, (e2.get k).isSome = (L.enums.get k).isSome := fun k => (get_same hr5 hes' k).isSome
  let B : Live := (L.doc σ values).blank c2 e2 gs
  have hB : ∀ (i o : Nat), L.groups[i]? = some o → SameGroup ((L.group o).1, L.chans.items.length + i) (B.group i) := by
    intro i o ho
    obtain ⟨g', hg', k1, k2, k3, -⟩ := hgs i o ho
    show SameGroup _ (gs[i]?.getD (Bits.Group.new .uint8), (L.doc σ values).channels.length + i)
    rw [hg']
    refine ⟨k1, k2, k3, ?_⟩
    show (L.chans.items.map _).length + i = _
    rw [List.length_map]
  have hidx : ∀ i ∈ List.range gs.length, ∃ o, L.groups[i]? = some o ∧ o ∈ L.groups := by
    intro i hi
    have : i < L.groups.length := by rw [← hlen]; exact List.mem_range.mp hi
    exact ⟨L.groups[i], List.getElem?_eq_getElem this, List.getElem_mem this⟩
  obtain ⟨L', ha1, ha2, ha3, ha4, ha5, ha6, ha7, ha8⟩ := add_known rx B (List.range gs.length)
    (by
      intro i hi p hp
      obtain ⟨o, ho, hm⟩ := hidx i hi
      obtain ⟨-, -, k3, -⟩ := hB i o ho
      rw [k3] at hp
      show (c2.names.map.identifier (.name p.1)).isSome
      rw [(hc5 _).2]
      exact (hc.known o hm).names p hp)
    (by
      intro i hi p hp e he
      obtain ⟨o, ho, hm⟩ := hidx i hi
      obtain ⟨-, -, k3, -⟩ := hB i o ho
      rw [k3] at hp
      show (e2.get (.id e)).isSome
      rw [hgetS]
      exact (hc.known o hm).enums p hp e he)
  have ha2 : L'.chans = c2 := ha2
  have ha3 : L'.enums = e2 := ha3
  have ha4 : L'.prim = fun j => ⟨(cellAt (cells (L.chans.items.map (fun p => (p.1, p.2.1))) gs) j).1, []⟩ := ha4
  have ha6 : L'.groups = List.range gs.length := by rw [ha6]; rfl
  have hL' : ∀ (i o : Nat), L.groups[i]? = some o → SameGroup ((L.group o).1, L.chans.items.length + i) (L'.group i) := by
    intro i o ho
    obtain ⟨a1, a2, a3, a4⟩ := hB i o ho
    obtain ⟨b1, b2, b3, b4⟩ := ha8 i
    exact ⟨b1.trans a1, b2.trans a2, b3.trans a3, b4.trans a4⟩
  have hlook : L'.lookup = L.lookup := by
    rw [ha7, hc.lookup]
    show lookupFrom [] 0 _ = _
    congr 1
    apply List.ext_getElem?
    intro i
    rw [List.getElem?_map, List.getElem?_map]
    by_cases h : i < gs.length
    · rw [List.getElem?_range h]
      obtain ⟨o, ho, -⟩ := hidx i (List.mem_range.mpr h)
      rw [ho]
      simp only [Option.map_some, (hB i o ho).2.2.1]
    · rw [List.getElem?_eq_none (by simpa using h), List.getElem?_eq_none (by omega)]
      rfl
  have hsame : Same L L' := by
    refine ⟨by rw [ha2]; exact hc5, ?_, by rw [ha3]; exact hr5, by rw [ha3]; exact hes', ?_, hlook⟩
    · rw [ha2, hc3]
      have : ∀ (l l' : List (String × (ChanD × Nat))), List.Forall₂ (fun p q => p.1 = q.1 ∧ q.2.1 = p.2.1 ∧
          L.chans.items[q.2.2]? = some p) l l' → l'.map (fun p => (p.1, p.2.1)) = l.map (fun p => (p.1, p.2.1)) := by
        intro l l' h
        induction h with
        | nil => rfl
        | cons h _ ih => rw [List.map_cons, List.map_cons, ih, h.1, h.2.1]
      exact this _ _ hchans
    · rw [ha6, List.forall₂_iff_get]
      refine ⟨by simpa using hlen.symm, ?_⟩
      intro i h1 h2
      have := hL' i _ (List.getElem?_eq_getElem h1)
      simp only [List.get_eq_getElem, List.getElem_range]
      exact ⟨this.1, this.2.1, this.2.2.1⟩
  have henum : ∀ k, OptRel SameEnum (L.enumOf k) (L'.enumOf k) := enumOf_same hsame.enumNames hsame.enums
  -- the two environments
  have hM : Mirror L.env σ L'.env (L.mirror σ) := by
    refine ⟨hsame.names, ?_, ?_⟩
    · intro n
      show OptRel _ (dget (L.chans.items.map _) n) (dget (L'.chans.items.map _) n)
      rw [dget_mapv L.chans.items (fun x => (⟨x.2, x.1.enum.bind L.enumOf, x.1.commandable⟩ : Chan)),
        dget_mapv L'.chans.items (fun x => (⟨x.2, x.1.enum.bind L'.enumOf, x.1.commandable⟩ : Chan))]
      rw [ha2, hc3]
      have h := forall₂_dget (R := fun (x y : ChanD × Nat) => y.1 = x.1 ∧ ∃ m, L.chans.items[y.2]? = some (m, x))
        (hchans.imp (fun p q h => ⟨h.1, h.2.1, p.1, h.2.2⟩)) n
      have hmem : ∀ x, dget L.chans.items n = some x → (n, x) ∈ L.chans.items := fun x hx => dget_mem hx
      generalize dget L.chans.items n = a at h hmem
      generalize dget items' n = b at h
      cases h with
      | none => exact .none
      | some h =>
        rename_i x y
        obtain ⟨h1, m, h2⟩ := h
        refine .some ⟨?_, ?_, ?_, ?_⟩
        · dsimp only
          rw [h1]
          cases x.1.enum with
          | none => exact .none
          | some k => exact henum k
        · dsimp only; rw [h1]
        · show L'.prim y.2 = L.prim x.2
          have hx := hmem x rfl
          rw [ha4]
          dsimp only
          rw [cell_chan h2]
          have hk : (L.prim x.2).kind = x.1.kind := hc.kinds _ hx
          have hs : (L.prim x.2).scaling = [] := hp.scaling _ hx
          rcases hpr : L.prim x.2 with ⟨kind, sc⟩
          rw [hpr] at hk hs
          dsimp only at hk hs
          rw [hk, hs]
        · exact mirror_chan h2
    · intro n
      have hnd : (L.lookup.map Prod.fst).Nodup := by rw [hc.lookup]; exact lookupFrom_nodup _ _ _ (by simp)
      show OptRel _ (dget (L.lookup.filterMap _) n) (dget (L'.lookup.filterMap _) n)
      rw [hlook, dget_filterMap L.lookup hnd (fun i m => L.fieldE i m),
        dget_filterMap L.lookup hnd (fun i m => L'.fieldE i m)]
      cases hl : dget L.lookup n with
      | none => exact .none
      | some i =>
        simp only [Option.bind_some]
        unfold Live.fieldE
        rw [ha6]
        cases ho : L.groups[i]? with
        | none =>
          rw [List.getElem?_eq_none (by
            have := (List.getElem?_eq_none_iff.mp ho)
            simpa [hlen] using this)]
          exact .none
        | some o =>
          have hlt : i < gs.length := by
            rw [hlen]
            by_contra hn
            rw [List.getElem?_eq_none (by omega)] at ho
            cases ho
          have hm : o ∈ L.groups := List.mem_of_getElem? ho
          rw [List.getElem?_range hlt]
          simp only [Option.bind_some]
          obtain ⟨k1, -, k3, k4⟩ := hL' i o ho
          rw [k3]
          cases hf : dget (L.group o).1.fields n with
          | none => exact .none
          | some f =>
            refine .some ⟨?_, rfl, rfl, rfl, ?_, ?_⟩
            · dsimp only; cases f.enum with
              | none => exact .none
              | some e => exact henum (.id e)
            · show (L'.prim (L'.group i).2).kind = (L.prim (L.group o).2).kind
              rw [k4, (hc.fine o hm).prim, ha4]
              obtain ⟨g', hg', q1, -⟩ := hgs i o ho
              dsimp only
              rw [cell_group hg', q1]
            · show L.mirror σ (L'.group i).2 = σ (L.group o).2
              rw [k4]
              exact mirror_group ho
  -- the new primitives hold values of their kinds
  have hT : ∀ τ : State,
      (∀ (j : Nat) (p : String × (ChanD × Nat)), L.chans.items[j]? = some p → Spec.Fits sem p.2.1.kind (τ j)) →
      (∀ (i o : Nat) (g' : Bits.Group), L.groups[i]? = some o → gs[i]? = some g' → GroupRel (L.group o).1 g' →
        Spec.Fits sem (.int g'.kind) (τ (L.chans.items.length + i))) →
      (∀ j, L.chans.items.length + L.groups.length ≤ j → τ j = .bool false) → Spec.Typed sem L'.env τ := by
    intro τ t1 t2 t3 j
    show Spec.Fits sem (L'.prim j).kind (τ j)
    rw [ha4]
    dsimp only
    rcases cell_cases L.chans.items.length L.groups.length j with h | ⟨i, h, rfl⟩ | h
    · rw [cell_chan (List.getElem?_eq_getElem h)]
      exact t1 j _ (List.getElem?_eq_getElem h)
    · obtain ⟨g', hg', q⟩ := hgs i _ (List.getElem?_eq_getElem h)
      rw [cell_group hg']
      exact t2 i _ g' (List.getElem?_eq_getElem h) hg' q
    · rw [cell_other (by omega), t3 j h]
      trivial
  have hTμ : Spec.Typed sem L'.env (L.mirror σ) := by
    refine hT _ ?_ ?_ ?_
    · intro j p hj
      rw [mirror_chan hj, ← hc.kinds p (List.mem_of_getElem? hj)]
      exact hσ p.2.2
    · intro i o g' ho hg' q
      rw [mirror_group ho, q.1, ← (hc.fine o (List.mem_of_getElem? ho)).prim]
      exact hσ (L.group o).2
    · intro j hj
      exact mirror_other hj
  have hT0 : Spec.Typed sem L'.env (fun j => (cellAt (cells (L.doc σ values).channels gs) j).2) := by
    refine hT _ ?_ ?_ ?_
    · intro j p hj
      show Spec.Fits sem _ (cellAt (cells (L.chans.items.map _) gs) j).2
      rw [cell_chan hj]
      exact hc.defaults p (List.mem_of_getElem? hj)
    · intro i o g' ho hg' q
      show Spec.Fits sem _ (cellAt (cells (L.chans.items.map _) gs) _).2
      rw [cell_group hg']
      show Wire.Spec.lo g'.kind ≤ g'.raw ∧ g'.raw ≤ Wire.Spec.hi g'.kind
      rw [q.1]
      exact ⟨q.2.2.2.2.1, q.2.2.2.2.2⟩
    · intro j hj
      show (cellAt (cells (L.chans.items.map _) gs) j).2 = _
      rw [cell_other (by omega)]
  have hWF : Spec.WF L'.env := by
    refine ⟨by show Registry.Spec.Bij L'.chans.names.map; rw [ha2]; exact hc4, ?_, ?_, ?_⟩
    · intro n c' e' hd he
      have h := hM.chans n
      rw [hd] at h
      obtain ⟨c, -, hr⟩ := h.right
      have := hr.enum
      rw [he] at this
      obtain ⟨e, -, hs⟩ := this.right
      exact hs.ok
    · intro n f' e' hd he
      have h := hM.fields n
      rw [hd] at h
      obtain ⟨f, -, hr⟩ := h.right
      have := hr.enum
      rw [he] at this
      obtain ⟨e, -, hs⟩ := this.right
      exact hs.ok
    · intro n f' hd
      have h := hM.fields n
      rw [hd] at h
      obtain ⟨f, hf, hr⟩ := h.right
      have hnd : (L.lookup.map Prod.fst).Nodup := by rw [hc.lookup]; exact lookupFrom_nodup _ _ _ (by simp)
      change dget (L.lookup.filterMap _) n = some f at hf
      rw [dget_filterMap L.lookup hnd (fun i m => L.fieldE i m)] at hf
      cases hl : dget L.lookup n with
      | none => rw [hl] at hf; cases hf
      | some i =>
        rw [hl] at hf
        simp only [Option.bind_some, Live.fieldE] at hf
        cases ho : L.groups[i]? with
        | none => rw [ho] at hf; cases hf
        | some o =>
          rw [ho] at hf
          simp only [Option.bind_some] at hf
          have hm : o ∈ L.groups := List.mem_of_getElem? ho
          cases hd2 : dget (L.group o).1.fields n with
          | none => rw [hd2] at hf; cases hf
          | some x =>
            rw [hd2] at hf
            simp only [Option.map_some, Option.some.injEq] at hf
            subst hf
            refine ⟨(L.group o).1.kind, by rw [hr.prim]; exact (hc.fine o hm).prim, ?_⟩
            rw [hr.index, hr.width]
            have hx := dget_mem hd2
            rw [(hc.fine o hm).fields] at hx
            exact fieldsOf_inside (hc.fine o hm).solid hx
  have hR : ∀ n c, dget L'.env.chans n = some c → Spec.Restorable L'.env c := by
    intro n c' hd
    have h := hM.chans n
    rw [hd] at h
    obtain ⟨c, hcc, hr⟩ := h.right
    change dget (L.chans.items.map _) n = some c at hcc
    rw [dget_mapv L.chans.items (fun x => (⟨x.2, x.1.enum.bind L.enumOf, x.1.commandable⟩ : Chan))] at hcc
    cases hx : dget L.chans.items n with
    | none => rw [hx] at hcc; cases hcc
    | some x =>
      rw [hx] at hcc
      simp only [Option.map_some, Option.some.injEq] at hcc
      subst hcc
      have hmem := dget_mem hx
      refine ⟨.inl ?_, ?_⟩
      · rw [hr.prim]; exact hp.scaling _ hmem
      · intro hk m he
        rw [hr.prim] at hk
        have hkind : x.1.kind = .bool := by rw [← hc.kinds _ hmem]; exact hk
        have := hr.enum
        rw [he] at this
        obtain ⟨e, h1, hs⟩ := this.right
        dsimp only at h1
        cases hxe : x.1.enum with
        | none => rw [hxe] at h1; cases h1
        | some k =>
          rw [hxe] at h1
          cases e with
          | ints m' => exact hp.enum _ hmem hkind k m' hxe h1
          | bools m' => exact absurd hs id
  -- the values
  obtain ⟨hx, hall⟩ := valuesOf_ok hv
  have hx' : Exported L'.env (L.mirror σ) r values := by
    intro p hp
    rw [hM.value]
    exact hx p hp
  obtain ⟨σ', hap, -, -, hag⟩ := apply_restores hi hWF hR hTμ values hx' _ hT0
  refine ⟨L', σ', ?_, hsame,
    fun n => (hM.fields n).imp (fun f f' h => ⟨h.index, h.width, h.commandable, h.enum⟩), ?_⟩
  · have hcheck : L'.checkEnums = .ok () := by
      unfold Live.checkEnums
      rw [if_pos]
      rw [List.all_eq_true]
      intro q hq
      rw [ha2, hc3] at hq
      obtain ⟨i, hi', hqi⟩ := List.mem_iff_getElem.mp hq
      have hz := forall₂_getElem? hchans i
      rw [List.getElem?_eq_getElem hi', hqi] at hz
      obtain ⟨p, hpi, -, h2, -⟩ := hz.right
      cases hen : q.2.1.enum with
      | none => rfl
      | some k =>
        dsimp only
        rw [ha3, hgetS]
        exact hc.chanEnums p (List.mem_of_getElem? hpi) k (by rw [← h2]; exact hen)
    unfold Doc.load
    have g1 : Reg.new rx.chan (fun c : ChanD × Nat => c.1.id)
        ((L.doc σ values).channels.mapIdx (fun j p => (p.1, (p.2, j)))) = .ok c1 := hc1
    have g2 : createAll (EnumD.create rx) (L.doc σ values).enums = .ok es := he1
    have g3 : loadNames rx.chan c1 (L.doc σ values).chanNames = .ok c2 := hc2
    have g4 : loadNames rx.name e1 (L.doc σ values).enumNames = .ok e2 := hr2
    have g5 : createGroups rx (L.doc σ values).fields = .ok gs := hg1
    have g6 : ((L.doc σ values).blank c2 e2 gs).addAll rx (List.range gs.length) = (L', .ok ()) := ha1
    simp only [g1, g2, hr1, g3, g4, g5, g6, hcheck]
    have g7 : L'.env.apply sem (fun j => (cellAt (cells (L.doc σ values).channels gs) j).2) (L.doc σ values).values
      = (σ', .ok ()) := hap
    rw [g7]
  · intro key hne r' s'
    rw [← hM.value key r' s']
    cases ht : L'.env.target key with
    | none => simp only [Env.value, ht]
    | some t =>
      have hn : ∃ n, L.env.names.nameOf key = some n := by
        rw [← (hM.names key).1]
        cases t with
        | chan c => obtain ⟨n, h, -⟩ := target_chan ht; exact ⟨n, h⟩
        | field f => obtain ⟨n, h, -⟩ := target_field ht; exact ⟨n, h⟩
      obtain ⟨n, hn⟩ := hn
      have hid : ∃ i, L.env.names.identifier (.name n) = some i := by
        cases key with
        | id i => exact ⟨i, (hc.names.bij i n).mp hn⟩
        | name s =>
          simp only [Mapping.nameOf] at hn
          split at hn
          · rename_i hs
            cases hn
            exact Option.isSome_iff_exists.mp hs
          · cases hn
      obtain ⟨i, hi'⟩ := hid
      have hmem : n ∈ L.env.names.reverse.map (·.1) := List.mem_map.mpr ⟨(n, i), dget_mem hi', rfl⟩
      have h2 : L.env.names.nameOf (.name n) = some n := nameOf_name hi'
      have hte : L.env.target (.name n) = L.env.target key := by
        simp only [Env.target, Env.getField, Env.getChan, hn, h2]
      have hte' : L'.env.target (.name n) = L'.env.target key := by
        simp only [Env.target, Env.getField, Env.getChan, (hM.names key).1, (hM.names (.name n)).1, hn, h2]
      obtain ⟨v, hvn, hin⟩ := hall n hmem
      have hvk : L.env.value σ key r true = .ok v := by
        rw [← hvn]; simp only [Env.value, hte]
      have hexp : v.exported = true := by
        cases v with
        | num q => cases q with
          | none => exact absurd hvk hne
          | some q => rfl
        | _ => rfl
      exact agree_value (sem := sem) ht (hag (n, v) (hin hexp) t (by rw [hte']; exact ht)) r' s'

end Verif.Environment
