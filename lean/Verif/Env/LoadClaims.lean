import Verif.Env.LoadBuild
/-! C68: exporting a channel environment and loading it again. -/
namespace Verif.Environment

open Verif.Wire Verif.Registry

/-- **C68** An environment built by any successful calls (enumerations, channels, groups of fields, single fields; the
conditions on the arguments are `Apt`), with channels that have no scaling and no integer enumeration on a boolean,
in any state: if it can be exported, the exported dictionary can be loaded, and then every key finds the same name,
identifier, channel, enumeration and field as in the environment exported, and reads the same value (raw or scaled, as
a name or as a number) unless what it exported was not a number. Missing: scaled channels (`C68_scaling_fails`), NaN,
and environments some building call of which raised (`C68_dangling_fails`). -/
theorem C68_round_trip_partial (rx : Rx) (hrx : rx.field "" = false) (sem : Sem) (hi : Spec.Idem sem)
    (prim : Nat → Prim) (group : Nat → Bits.Group × Nat) (ops : List BOp) (L : Live)
    (ha : Apt rx sem (Live.start prim group) ops) (hb : (Live.start prim group).build rx ops = (L, .ok ()))
    (hp : Plain L) (σ : State) (hσ : Spec.Typed sem L.env σ) (r : Bool) (L1 : Live) (d : Doc)
    (hx : L.export rx σ r = (L1, .ok d)) :
    ∃ L' σ', d.load rx sem = .ok (L', σ') ∧
      ∀ key,
        (L'.chans.names.map.nameOf key = L1.chans.names.map.nameOf key
          ∧ L'.chans.names.map.identifier key = L1.chans.names.map.identifier key)
        ∧ (L'.chans.get key).map (·.1) = (L1.chans.get key).map (·.1)
        ∧ OptRel (fun e e' => e'.id = e.id ∧ SameEnum e.enum e'.enum) (L1.enums.get key) (L'.enums.get key)
        ∧ OptRel SameField (L1.env.getField key) (L'.env.getField key)
        ∧ (L1.env.value σ key r true ≠ .ok (.num none) →
            ∀ r' s', L'.env.value σ' key r' s' = L1.env.value σ key r' s') := by
  have hc := clean_build rx sem ops _ L (clean_start rx sem prim group) ha hb
  unfold Live.export Live.finalize at hx
  rcases hf : L.addAll rx L.toAdd with ⟨L2, e | ⟨⟩⟩
  · rw [hf] at hx; cases hx
  · rw [hf] at hx
    dsimp only at hx
    cases hv : L2.env.values σ r with
    | error e => rw [hv] at hx; cases hx
    | ok values =>
      rw [hv] at hx
      have h1 := (Prod.mk.injEq .. ▸ hx : L2 = L1 ∧ _)
      obtain ⟨rfl, h2⟩ := h1
      obtain ⟨c1, c2, c3, c4, c5, c6, c7⟩ := clean_addAll rx sem L.toAdd L L2 hc hc.later hf
      have hp2 : Plain L2 := by
        refine ⟨?_, ?_⟩
        · rw [c6, c5]; exact hp.scaling
        · rw [c6]
          intro p hpm hk k m he
          have : L2.enumOf k = L.enumOf k := by unfold Live.enumOf; rw [c7]
          rw [this]
          exact hp.enum p hpm hk k m he
      have hσ2 : Spec.Typed sem L2.env σ := by
        intro j
        show Spec.Fits sem (L2.prim j).kind (σ j)
        rw [c5]
        exact hσ j
      obtain ⟨L', σ', hl, hs, hfld, hval⟩ := load_doc rx hrx sem hi L2 c1 hp2 σ hσ2 r values hv
      have hd : d = L2.doc σ values := by
        simp only [Except.map, Except.ok.injEq] at h2
        exact h2.symm
      rw [hd]
      refine ⟨L', σ', hl, fun key => ⟨hs.names key, ?_, get_same hs.enumNames hs.enums key, ?_, hval key⟩⟩
      · unfold Reg.get
        rw [(hs.names key).1]
        cases L2.chans.names.map.nameOf key with
        | none => rfl
        | some n =>
          dsimp only
          rw [← dget_mapv L'.chans.items Prod.fst, ← dget_mapv L2.chans.items Prod.fst]
          exact congrArg (fun l => dget l n) hs.chans
      · unfold Env.getField
        rw [show L'.env.names.nameOf key = L2.env.names.nameOf key from (hs.names key).1]
        cases L2.env.names.nameOf key with
        | none => exact .none
        | some n => exact hfld n

/-- **C68** What export does to the environment: the groups waiting to be added are added, and they go on waiting. -/
theorem C68_grows_fails (rx : Rx) (L L1 : Live) (σ : State) (r : Bool) (d : Doc) (hx : L.export rx σ r = (L1, .ok d)) :
    L1.groups = L.groups ++ L.toAdd ∧ L1.toAdd = L.toAdd ∧ d.fields.length = L.groups.length + L.toAdd.length := by
  have hreg : ∀ (fs : List (String × Bits.Field)) (A B : Live) (i : Nat), A.register rx i fs = (B, .ok ()) →
      B.groups = A.groups ∧ B.toAdd = A.toAdd := by
    intro fs
    induction fs with
    | nil => intro A B i h; cases h; exact ⟨rfl, rfl⟩
    | cons p fs ih =>
      intro A B i h
      obtain ⟨n, f⟩ := p
      unfold Live.register at h
      rcases hr : A.chans.names.register rx.chan n none with ⟨nr, e | _ | k⟩
      · rw [hr] at h; cases h
      · rw [hr] at h; cases h
      · rw [hr] at h
        dsimp only at h
        cases hf : f.enum with
        | none => rw [hf] at h; dsimp only at h; have q := ih _ _ _ h; exact q
        | some e =>
          rw [hf] at h
          dsimp only at h
          cases hg : A.enums.getItem (.id e) with
          | error x => rw [hg] at h; cases h
          | ok x => rw [hg] at h; dsimp only at h; have q := ih _ _ _ h; exact q
  have hall : ∀ (os : List Nat) (A B : Live), A.addAll rx os = (B, .ok ()) →
      B.groups = A.groups ++ os ∧ B.toAdd = A.toAdd := by
    intro os
    induction os with
    | nil => intro A B h; cases h; exact ⟨by simp, rfl⟩
    | cons o os ih =>
      intro A B h
      unfold Live.addAll at h
      rcases hadd : A.add rx o with ⟨C, e | ⟨⟩⟩
      · rw [hadd] at h; cases h
      · rw [hadd] at h
        dsimp only at h
        obtain ⟨h1, h2⟩ := ih C B h
        unfold Live.add at hadd
        dsimp only at hadd
        obtain ⟨h3, h4⟩ := hreg _ _ _ _ hadd
        exact ⟨by rw [h1, h3]; simp, by rw [h2, h4]⟩
  unfold Live.export Live.finalize at hx
  rcases hf : L.addAll rx L.toAdd with ⟨L2, e | ⟨⟩⟩
  · rw [hf] at hx; cases hx
  · rw [hf] at hx
    dsimp only at hx
    obtain ⟨h1, h2⟩ := hall _ _ _ hf
    cases hv : L2.env.values σ r with
    | error e => rw [hv] at hx; cases hx
    | ok values =>
      rw [hv] at hx
      cases hx
      exact ⟨h1, h2, by simp [h1]⟩

/-- **C68** Every channel of a loaded environment is without scaling. -/
theorem C68_no_scaling (rx : Rx) (sem : Sem) (d : Doc) (L : Live) (σ : State) (h : d.load rx sem = .ok (L, σ)) (j : Nat) :
    (L.prim j).scaling = [] := by
  have hreg : ∀ (fs : List (String × Bits.Field)) (A B : Live) (i : Nat), A.register rx i fs = (B, .ok ()) →
      B.prim = A.prim := by
    intro fs
    induction fs with
    | nil => intro A B i h; cases h; rfl
    | cons p fs ih =>
      intro A B i h
      obtain ⟨n, f⟩ := p
      unfold Live.register at h
      rcases hr : A.chans.names.register rx.chan n none with ⟨nr, e | _ | k⟩
      · rw [hr] at h; cases h
      · rw [hr] at h; cases h
      · rw [hr] at h
        dsimp only at h
        cases hf : f.enum with
        | none => rw [hf] at h; dsimp only at h; have q := ih _ _ _ h; exact q
        | some e =>
          rw [hf] at h
          dsimp only at h
          cases hg : A.enums.getItem (.id e) with
          | error x => rw [hg] at h; cases h
          | ok x => rw [hg] at h; dsimp only at h; have q := ih _ _ _ h; exact q
  have hall : ∀ (os : List Nat) (A B : Live), A.addAll rx os = (B, .ok ()) → B.prim = A.prim := by
    intro os
    induction os with
    | nil => intro A B h; cases h; rfl
    | cons o os ih =>
      intro A B h
      unfold Live.addAll at h
      rcases hadd : A.add rx o with ⟨C, e | ⟨⟩⟩
      · rw [hadd] at h; cases h
      · rw [hadd] at h
        dsimp only at h
        unfold Live.add at hadd
        dsimp only at hadd
        rw [ih C B h, hreg _ _ _ _ hadd]
  unfold Doc.load at h
  split at h
  · cases h
  · split at h
    · cases h
    · split at h
      · cases h
      · split at h
        · cases h
        · split at h
          · cases h
          · split at h
            · cases h
            · split at h
              · cases h
              · rename_i hadd
                split at h
                · cases h
                · split at h
                  · cases h
                  · cases h
                    rw [hall _ _ _ hadd]
                    rfl

/-! ### Cases -/

namespace LoadCase

/-- Every name, but no empty one for a field. -/
def rx : Rx := ⟨fun _ => true, fun _ => true, fun s => s != ""⟩

def sem : Sem := ⟨fun _ => none, fun _ => none, fun _ => none, id⟩

/-- Primitive 0: one byte; 1: a boolean; 2: a float; 3: one byte for fields; 4: one byte with scaling. -/
def prim : Nat → Prim
  | 1 => ⟨.bool, []⟩
  | 2 => ⟨.float, []⟩
  | 4 => ⟨.int .uint8, [0, 1 / 2]⟩
  | _ => ⟨.int .uint8, []⟩

/-- Every group is empty and on primitive 3. -/
def group : Nat → Bits.Group × Nat := fun _ => (Bits.Group.new .uint8, 3)

/-- An enumeration, a channel with it, a truth value, a float, and two fields of one primitive. -/
def ops : List BOp :=
  [.enum "Mode" (.ints [("off", 0), ("on", 7)]), .channel "mode" 0 true (some (.name "Mode")) none,
    .channel "flag" 1 false none (some (.bool true)), .channel "level" 2 false none none,
    .channel "bits" 3 false none none,
    .field 0 true ⟨"low", 0, 1, none, true⟩, .field 0 false ⟨"high", 4, 3, some 1, false⟩]

def state : State
  | 0 => .int 7
  | 1 => .bool false
  | 2 => .num (some (3 / 2))
  | 4 => .int 3
  | _ => .int 0x71

def built : Live := ((Live.start prim group).build rx ops).1

theorem built_ok : (Live.start prim group).build rx ops = (built, .ok ()) := rfl

theorem fine_new (L : Live) (o : Nat) (h : L.group o = (Bits.Group.new .uint8, 3)) (hp : (L.prim 3).kind = .int .uint8) :
    Fine rx L o := by
  refine ⟨?_, ?_, ?_⟩
  · rw [h]
    refine ⟨fun p hp => (by cases hp), .nil, fun i f hp => (by cases hp), ?_, fun i w v hp => (by cases hp)⟩
    intro a i f b he
    exact absurd he (by simp [Bits.Group.new])
  · rw [h]; rfl
  · rw [h]; exact hp

theorem apt : Apt rx sem (Live.start prim group) ops := by
  refine ⟨trivial, ?_, ?_, ?_, ?_, ?_, ?_, trivial⟩
  · exact ⟨by decide, by decide⟩
  · trivial
  · rfl
  · exact ⟨by decide, by decide⟩
  · refine ⟨fine_new _ _ rfl rfl, by decide +kernel, by decide, by decide, by decide, ?_⟩
    intro p hp
    cases hp
  · refine ⟨⟨⟨?_, ?_, ?_, ?_, ?_⟩, rfl, rfl⟩, by decide +kernel, by decide, by decide, by decide, ?_⟩
    · intro p hp
      rcases List.mem_singleton.mp hp with rfl
      exact ⟨by decide, by decide⟩
    · exact List.pairwise_singleton _ _
    · intro i f hp
      cases List.mem_singleton.mp hp
      exact ⟨rfl, rfl⟩
    · intro a i f b he hw
      rcases a with _ | ⟨x, a⟩
      · rfl
      · have := congrArg List.length he
        have e : (1 : Nat) = (x :: a ++ (i, Bits.Item.field f) :: b).length := this
        simp at e
    · intro i w v hp
      cases List.mem_singleton.mp hp
    · intro p hp b hb
      rcases List.mem_singleton.mp hp with rfl
      obtain ⟨⟨h1, h2⟩, h3, h4⟩ := hb
      simp only [Bits.Item.width] at h2
      dsimp only at h3
      omega

theorem plain : Plain built := by
  have hk : built.chans.items.map (fun p => (p.2.2, p.2.1.kind, p.2.1.enum))
      = [(0, .int .uint8, some (.name "Mode")), (1, .bool, none), (2, .float, none), (3, .int .uint8, none)] := by
    decide +kernel
  have hmem : ∀ p ∈ built.chans.items, (p.2.2, p.2.1.kind, p.2.1.enum) ∈
      [(0, SKind.int .uint8, some (Key.name "Mode")), (1, .bool, none), (2, .float, none), (3, .int .uint8, none)] := by
    intro p hp
    rw [← hk]
    exact List.mem_map.mpr ⟨p, hp, rfl⟩
  refine ⟨?_, ?_⟩
  · intro p hp
    have := hmem p hp
    simp only [List.mem_cons, Prod.mk.injEq, List.not_mem_nil, or_false] at this
    show (prim p.2.2).scaling = []
    rcases this with h | h | h | h <;> rw [h.1] <;> rfl
  · intro p hp hb k m he
    have := hmem p hp
    rw [hb, he] at this
    simp at this

theorem typed : Spec.Typed sem built.env state := by
  intro j
  show Spec.Fits sem (prim j).kind (state j)
  match j with
  | 0 => exact ⟨by decide, by decide⟩
  | 1 => trivial
  | 2 => rfl
  | 3 => exact ⟨by decide, by decide⟩
  | 4 => exact ⟨by decide, by decide⟩
  | n + 5 => exact ⟨by decide, by decide⟩

/-- It can be exported, and these are the values. -/
theorem exported : (built.export rx state true).2.toOption.map (·.values)
    = some [("mode", .str "on"), ("flag", .bool false), ("level", .num (some (3 / 2))), ("bits", .int 0x71),
      ("low", .bool true), ("high", .str "on")] := by
  decide +kernel

/-- The hypotheses of the round trip are met. -/
example : ∃ L1 d L' σ', built.export rx state true = (L1, .ok d) ∧ d.load rx sem = .ok (L', σ') ∧
    L'.env.value σ' (.name "high") true true = .ok (.str "on") := by
  rcases hx : built.export rx state true with ⟨L1, e | d⟩
  · have := exported
    rw [hx] at this
    cases this
  · obtain ⟨L', σ', h1, h2⟩ := C68_round_trip_partial rx rfl sem (fun _ => rfl) prim group ops built apt built_ok plain
      state typed true L1 d hx
    refine ⟨L1, d, L', σ', rfl, h1, ?_⟩
    have hv : L1.env.value state (.name "high") true true = .ok (.str "on") := by
      have e : (built.export rx state true).1.env.value state (.name "high") true true = .ok (.str "on") := by
        decide +kernel
      rw [hx] at e
      exact e
    rw [(h2 (.name "high")).2.2.2.2 (by rw [hv]; simp) true true, hv]

/-- Exporting twice exports the group of fields twice. -/
example : (built.export rx state true).2.toOption.map (·.fields.length) = some 1
    ∧ ((built.export rx state true).1.export rx state true).2.toOption.map (·.fields.length) = some 2 := by
  decide +kernel

end LoadCase

/-- What a key of an environment exported and loaded again reads, unscaled and scaled. -/
def reload (rx : Rx) (sem : Sem) (L : Live) (σ : State) (key : Key Int) : Except PyErr (CV × CV) :=
  match L.export rx σ false with
  | (_, .error e) => .error e
  | (_, .ok d) =>
    match d.load rx sem with
    | .error e => .error e
    | .ok (L, σ) =>
      match L.env.value σ key false false, L.env.value σ key false true with
      | .ok a, .ok b => .ok (a, b)
      | .error e, _ => .error e
      | _, .error e => .error e

/-- **C68** A channel with a scaling does not keep its value: the scaled value is what the new primitive is set to. -/
theorem C68_scaling_fails :
    let L := ((Live.start LoadCase.prim LoadCase.group).build LoadCase.rx [.channel "half" 4 false none none]).1
    L.env.value LoadCase.state (.name "half") false false = .ok (.int 3)
    ∧ L.env.value LoadCase.state (.name "half") false true = .ok (.num (some (3 / 2)))
    ∧ reload LoadCase.rx LoadCase.sem L LoadCase.state (.name "half") = .ok (.int 2, .int 2) := by
  decide +kernel

/-- **C68** A channel whose enumeration does not exist: creating it raises `KeyError` after the channel was registered;
it stays, the environment exports, and what it exported can not be loaded. -/
theorem C68_dangling_fails :
    let op : BOp := .channel "mode" 0 false (some (.name "Mode")) none
    let r := op.run LoadCase.rx (Live.start LoadCase.prim LoadCase.group)
    r.2 = .error .key ∧ r.1.env.value LoadCase.state (.name "mode") false true = .ok (.int 7)
    ∧ reload LoadCase.rx LoadCase.sem r.1 LoadCase.state (.name "mode") = .error .key := by
  decide +kernel

/-- **C68** `add_field` claims no bits: fields that overlap are accepted and work, the environment exports, and what it
exported can not be loaded. With the same first bit, the earlier field is not exported at all. -/
theorem C68_overlap_fails :
    let L := ((Live.start LoadCase.prim LoadCase.group).build LoadCase.rx
      [.field 0 true ⟨"a", 0, 3, none, false⟩, .field 0 false ⟨"b", 2, 3, none, false⟩])
    let M := ((Live.start LoadCase.prim LoadCase.group).build LoadCase.rx
      [.field 0 true ⟨"a", 0, 3, none, false⟩, .field 0 false ⟨"b", 0, 4, none, false⟩])
    L.2 = .ok () ∧ M.2 = .ok ()
    ∧ (L.1.export LoadCase.rx LoadCase.state false).1.env.value LoadCase.state (.name "b") false true = .ok (.int 4)
    ∧ reload LoadCase.rx LoadCase.sem L.1 LoadCase.state (.name "b") = .error .assertion
    ∧ (M.1.export LoadCase.rx LoadCase.state false).1.env.value LoadCase.state (.name "a") false true = .ok (.int 1)
    ∧ reload LoadCase.rx LoadCase.sem M.1 LoadCase.state (.name "a") = .error .key := by
  decide +kernel

/-- **C68** A field added to a group that was added already is not found until the environment is exported, and is
found in what was loaded. -/
theorem C68_late_field_fails :
    let L := ((Live.start LoadCase.prim LoadCase.group).build LoadCase.rx
      [.field 0 true ⟨"a", 0, 3, none, false⟩, .add 0, .field 0 false ⟨"b", 4, 3, none, false⟩])
    L.2 = .ok () ∧ L.1.env.value LoadCase.state (.name "b") false true = .error .key
    ∧ reload LoadCase.rx LoadCase.sem L.1 LoadCase.state (.name "b") = .ok (.int 7, .int 7) := by
  decide +kernel

end Verif.Environment
