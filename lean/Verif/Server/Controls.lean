import Verif.Env.Command
import Mathlib.Tactic.FieldSimp
/-!
C91: the controls of a channel table (`net/server/app/env/tab/controls.py`, `html.py`,
`env/widgets.py`), the commands their handlers send (`data/js/classes/TabInterface.js`,
`ChannelTable.js`) and what those commands do (`Env`).

Left out: styling, tool tips, plot check boxes, the values of sliders. `txt` stands for `str` of a
Python value, as it is written into an attribute. A handler's command line is taken as its words:
command, name, value (values here are single words the argument parser takes as positional).
-/
namespace Verif.Controls

open Verif.Wire Verif.Registry Verif.Environment

/-- What the table needs beyond `Chan`: `channel.default` and whether `channel.controls` has a
slider, channel/__init__.py 85–105. -/
structure Ui where
  default : String → Option CV
  slider : String → Bool

/-- One control of a row, all with `id=name`. `select`: texts and values of the options, and the
texts of those marked selected. -/
inductive Control where
  | toggle (id : String)
  | select (id : String) (opts : List (String × CV)) (selected : List String)
  | input (id : String)
  | reset (id : String) (value : CV)
  | slider (id : String)

/-- `enum.asdict()["items"]`, enum/__init__.py 75–89. -/
def items : Enum → List (String × CV)
  | .ints m => m.reverse.map fun p => (p.1, .int p.2)
  | .bools m => m.reverse.map fun p => (p.1, .bool p.2)

/-- `enum_dropdown`, widgets.py 54–68: an option is selected when `current == val`. -/
def dropdown (name : String) (e : Enum) (current : CV) : Control :=
  .select name (items e)
    (((items e).filter fun p => current.eqInt == p.2.eqInt).map (·.1))

/-- `_handle_controls`, controls.py 63–134. -/
def chanControls (E : Env) (ui : Ui) (σ : State) (name : String) (c : Chan) : List Control :=
  if c.commandable then
    if (E.prim c.slot).kind = .bool then
      .toggle name :: ((ui.default name).map (Control.reset name)).toList
    else
      match c.enum with
      | some e => [dropdown name e (σ c.slot).toCV]
      | none =>
        .input name :: (((ui.default name).map (Control.reset name)).toList ++
          if ui.slider name then [.slider name] else [])
  else []

/-- `_bit_field_controls`, controls.py 136–157, with `add_field`, html.py 91–127. -/
def fieldControls (σ : State) (name : String) (f : FieldE) : List Control :=
  if f.commandable then
    if f.width = 1 then [.toggle name]
    else
      match f.enum with
      | some e => [dropdown name e (.int (Bits.readField (σ f.slot).raw f.index f.width))]
      | none => [.input name]
  else []

/-- The controls of one row, html.py 153–181: a channel's if the name has a channel. -/
def row (E : Env) (ui : Ui) (σ : State) (name : String) : List Control :=
  match E.fieldOrChannel (.name name) with
  | some (.chan c) => chanControls E ui σ name c
  | some (.field f) => fieldControls σ name f
  | none => []

/-- `toggle ${toggle.id}`, TabInterface.js 136–139. -/
def toggleArgs (name : String) : Args := ⟨.toggle, false, false, name, []⟩

/-- `set ${elem.id} ${elem.value}`, TabInterface.js 180–184 and ChannelTable.js 23–34. -/
def setArgs (name value : String) : Args := ⟨.set, false, false, name, [value]⟩

/-- The reset buttons of the table, in its order (`.default-button`, TabInterface.js 156–160). -/
def resets (E : Env) (ui : Ui) (σ : State) (names : List String) : List (String × CV) :=
  names.flatMap fun n => (row E ui σ n).filterMap fun
    | .reset id v => some (id, v)
    | _ => none

/-- Pressing reset buttons one after the other: the `set-defaults` button, TabInterface.js 163–170. -/
def pressAll (sem : Sem) (txt : CV → String) (E : Env) (σ : State) : List (String × CV) → State
  | [] => σ
  | (n, v) :: rest => pressAll sem txt E (handle (H := Unit) sem E [] σ (setArgs n (txt v))).1 rest

/-- The control that changes the value: not a reset button or slider. -/
def Control.primary : Control → Bool
  | .toggle _ | .select .. | .input _ => true
  | _ => false

/-- The row a control is for. -/
def Control.id : Control → String
  | .toggle n | .select n _ _ | .input n | .reset n _ | .slider n => n

/-- Reading back what `str` wrote, with `int`, `float` and `StrToBool.parse`. -/
structure Text (sem : Sem) (txt : CV → String) : Prop where
  int : ∀ v, sem.parseInt (txt (.int v)) = some v
  bool : ∀ b, sem.parseBool (txt (.bool b)) = some b
  num : ∀ q, sem.parseFloat (txt (.num (some q))) = some (some q)

/-- The name is that of a channel or of a field, not of both. -/
def One (E : Env) (name : String) : Prop := dget E.fields name = none ∨ dget E.chans name = none

theorem nameOf_eq {E : Env} {name n : String} (h : E.names.nameOf (.name name) = some n) : n = name := by
  unfold Mapping.nameOf at h
  split at h <;> simp_all

theorem same_target {E : Env} {name : String} (h : One E name) :
    E.target (.name name) = E.fieldOrChannel (.name name) := by
  unfold Env.target Env.fieldOrChannel Env.getField Env.getChan
  cases hn : E.names.nameOf (.name name) with
  | none => rfl
  | some n =>
    rw [nameOf_eq hn]
    rcases h with h | h <;> simp [h]
    · cases dget E.chans name <;> rfl
    · cases dget E.fields name <;> rfl

/-- C91: the controls of a row. A channel or field that is not commandable has none; a commandable one
has exactly one control for its value; every control is for its own row. -/
theorem C91_controls (E : Env) (ui : Ui) (σ : State) (name : String) (t : Target)
    (ht : E.fieldOrChannel (.name name) = some t) :
    (t.commandable = false → row E ui σ name = []) ∧
    (t.commandable = true → ((row E ui σ name).filter Control.primary).length = 1) ∧
    ∀ ctl ∈ row E ui σ name, ctl.id = name := by
  unfold row
  rw [ht]
  cases t with
  | chan c =>
    dsimp only [Target.commandable]
    unfold chanControls
    cases hc : c.commandable with
    | false => simp
    | true =>
      simp only [if_true]
      refine ⟨fun h => (by cases h), fun _ => ?_, ?_⟩
      · split
        · cases ui.default name <;> rfl
        · cases c.enum with
          | some e => rfl
          | none =>
            cases ui.default name <;> cases ui.slider name <;> rfl
      · split
        · cases ui.default name <;> simp [Control.id]
        · cases c.enum with
          | some e => simp [dropdown, Control.id]
          | none =>
            cases ui.default name <;> cases ui.slider name <;> simp [Control.id]
  | field f =>
    dsimp only [Target.commandable]
    unfold fieldControls
    cases hc : f.commandable with
    | false => simp
    | true =>
      simp only [if_true]
      refine ⟨fun h => (by cases h), fun _ => ?_, ?_⟩
      · split
        · rfl
        · cases f.enum <;> rfl
      · split
        · simp [Control.id]
        · cases f.enum <;> simp [dropdown, Control.id]

/-- Commandable, when a row has any control. -/
theorem row_commandable {E : Env} {ui : Ui} {σ : State} {name : String} {t : Target}
    (ht : E.fieldOrChannel (.name name) = some t) {ctl : Control} (h : ctl ∈ row E ui σ name) :
    t.commandable = true := by
  cases hc : t.commandable with
  | true => rfl
  | false =>
    rw [(C91_controls E ui σ name t ht).1 hc] at h
    cases h

/-- A permitted set command whose assignment works. -/
theorem set_runs {sem : Sem} {E : Env} {σ σ' : State} {name s : String} {t : Target}
    (ht : E.fieldOrChannel (.name name) = some t) (hc : t.commandable = true)
    (hs : E.set sem σ (.name name) (.str s) true = .ok σ') :
    (handle (H := Unit) sem E [] σ (setArgs name s)).1 = σ' ∧
    (handle (H := Unit) sem E [] σ (setArgs name s)).2.2 = .ok (.success none) := by
  have := (C37_permitted (H := Unit) sem E [] σ (setArgs name s) rfl t ht (.inl hc)).1 s [] σ' rfl rfl hs
  rw [this]
  exact ⟨rfl, rfl⟩

/-- C91: pressing a toggle button inverts the value and touches nothing else. -/
theorem C91_toggle (sem : Sem) (E : Env) (hE : Spec.WF E) (ui : Ui) (σ : State)
    (hσ : Spec.Typed sem E σ) (name : String) (h1 : One E name)
    (h : .toggle name ∈ row E ui σ name) :
    let r := handle (H := Unit) sem E [] σ (toggleArgs name)
    r.2.2 = .ok (.success none) ∧
    (∃ b, E.value σ (.name name) false false = .ok (.bool b) ∧
      E.value r.1 (.name name) false false = .ok (.bool (!b))) ∧
    ∀ key' t t', E.target (.name name) = some t → E.target key' = some t' → Spec.Apart t t' →
      ∀ x y, E.value r.1 key' x y = E.value σ key' x y := by
  intro r
  have hr : r = handle (H := Unit) sem E [] σ (toggleArgs name) := rfl
  cases ht : E.fieldOrChannel (.name name) with
  | none => simp [row, ht] at h
  | some t =>
    have hc := row_commandable ht h
    have htt : E.target (.name name) = some t := by rw [same_target h1, ht]
    obtain ⟨p1, p2⟩ := (C37_permitted (H := Unit) sem E [] σ (toggleArgs name) rfl t ht (.inl hc)).2 rfl
    have ht2 := (C37_toggle sem E hE σ hσ (.name name) t htt).2
    refine ⟨?_, ?_, ?_⟩
    · rw [hr, p2]
      cases t with
      | chan c =>
        have hk : (E.prim c.slot).kind = .bool := by
          simp only [row, ht, chanControls] at h
          have hc' : c.commandable = true := hc
          rw [if_pos hc'] at h
          split at h
          · assumption
          · cases he : c.enum with
            | some e => rw [he] at h; simp [dropdown] at h
            | none =>
              rw [he] at h
              cases hd : ui.default name <;> cases hs : ui.slider name <;> simp [hd, hs] at h
        obtain ⟨b, -, -, h3⟩ := ht2.1 hk
        exact h3
      | field f => exact ht2.1
    · rw [hr, p1]
      cases t with
      | chan c =>
        have hk : (E.prim c.slot).kind = .bool := by
          simp only [row, ht, chanControls] at h
          have hc' : c.commandable = true := hc
          rw [if_pos hc'] at h
          split at h
          · assumption
          · cases he : c.enum with
            | some e => rw [he] at h; simp [dropdown] at h
            | none =>
              rw [he] at h
              cases hd : ui.default name <;> cases hs : ui.slider name <;> simp [hd, hs] at h
        obtain ⟨b, h3, h4, -⟩ := ht2.1 hk
        refine ⟨b, ?_, ?_⟩
        · simp [Env.value, htt, getChanValue_false, h3, PV.toCV]
        · simp only [Env.value, htt, getChanValue_false, h4, PV.toCV]
          rfl
      | field f =>
        have hw : f.width = 1 := by
          simp only [row, ht, fieldControls] at h
          have hc' : f.commandable = true := hc
          rw [if_pos hc'] at h
          split at h
          · assumption
          · cases he : f.enum <;> rw [he] at h <;> simp [dropdown] at h
        have h3 := ht2.2
        rw [hw] at h3
        have hlt : Bits.readField (σ f.slot).raw f.index 1 = 0 ∨
            Bits.readField (σ f.slot).raw f.index 1 = 1 := by
          rw [Bits.readField_arith]
          generalize (σ f.slot).raw / 2 ^ f.index = z
          have : (2 : Int) ^ 1 = 2 := rfl
          rw [this]
          omega
        refine ⟨decide (Bits.readField (σ f.slot).raw f.index 1 ≠ 0), ?_, ?_⟩
        · simp only [Env.value, htt, getFieldValue_false, hw, if_true]
        · simp only [Env.value, htt, getFieldValue_false, hw, if_true, h3]
          rcases hlt with h | h <;> rw [h] <;> rfl
    · intro key' t0 t' ht0 ht' hd x y
      rw [htt] at ht0
      cases ht0
      rw [hr]
      exact C37_only_target_partial (H := Unit) sem E hE [] σ hσ (toggleArgs name) h1 t ht key' t' ht' hd x y

/-- C91: a page can be older than the environment, and has no more rights than it: toggling, choosing or resetting
what is not commandable any more is refused, and nothing changes. -/
theorem C91_refused (sem : Sem) (E : Env) (hooks : List Unit) (σ : State) (name value : String)
    (h : ∀ t, E.fieldOrChannel (.name name) = some t → t.commandable = false) :
    (∃ r, handle sem E hooks σ (toggleArgs name) = (σ, [], .ok r) ∧ r.good = false) ∧
    ∃ r, handle sem E hooks σ (setArgs name value) = (σ, [], .ok r) ∧ r.good = false :=
  ⟨C37_refused sem E hooks σ (toggleArgs name) rfl (.inr rfl) fun t ht => ⟨h t ht, rfl⟩,
   C37_refused sem E hooks σ (setArgs name value) rfl (.inl rfl) fun t ht => ⟨h t ht, rfl⟩⟩

/-! ### Drop-downs -/

/-- An enumeration that a drop-down can be built from: consistent, a dictionary. -/
def Fair (e : Enum) : Prop := Spec.EnumOk e ∧ ((items e).map Prod.fst).Nodup

theorem mem_dget {α β : Type} [DecidableEq α] {l : List (α × β)} {k : α} {v : β}
    (hn : (l.map Prod.fst).Nodup) (h : (k, v) ∈ l) : dget l k = some v := by
  induction l with
  | nil => cases h
  | cons p l ih =>
    obtain ⟨a, b⟩ := p
    rw [dget_cons]
    simp only [List.map_cons, List.nodup_cons] at hn
    rcases List.mem_cons.mp h with e | e
    · cases e; simp
    · have : a ≠ k := fun e' => hn.1 (e' ▸ List.mem_map.mpr ⟨_, e, rfl⟩)
      rw [if_neg (by first | exact this | exact fun e : k = a => this e.symm)]
      exact ih hn.2 e

theorem fair_ints {m : Mapping Int} (h : Fair (.ints m)) {k : String} {i : Int} :
    (k, CV.int i) ∈ items (.ints m) ↔ m.identifier (.name k) = some i := by
  have hn : (m.reverse.map Prod.fst).Nodup := by
    have := h.2
    simpa [items, List.map_map, Function.comp_def] using this
  simp only [items, List.mem_map, Prod.mk.injEq, CV.int.injEq, Mapping.identifier]
  constructor
  · rintro ⟨⟨a, b⟩, hm, rfl, rfl⟩
    exact mem_dget hn hm
  · intro hd
    exact ⟨(k, i), dget_mem hd, rfl, rfl⟩

theorem fair_bools {m : Mapping Bool} (h : Fair (.bools m)) {k : String} {b : Bool} :
    (k, CV.bool b) ∈ items (.bools m) ↔ m.identifier (.name k) = some b := by
  have hn : (m.reverse.map Prod.fst).Nodup := by
    have := h.2
    simpa [items, List.map_map, Function.comp_def] using this
  simp only [items, List.mem_map, Prod.mk.injEq, CV.bool.injEq, Mapping.identifier]
  constructor
  · rintro ⟨⟨a, b⟩, hm, rfl, rfl⟩
    exact mem_dget hn hm
  · intro hd
    exact ⟨(k, b), dget_mem hd, rfl, rfl⟩

theorem items_ints {m : Mapping Int} {k : String} {v : CV} (h : (k, v) ∈ items (.ints m)) :
    ∃ i, v = .int i := by
  simp only [items, List.mem_map, Prod.mk.injEq] at h
  obtain ⟨p, -, -, rfl⟩ := h
  exact ⟨_, rfl⟩

theorem items_bools {m : Mapping Bool} {k : String} {v : CV} (h : (k, v) ∈ items (.bools m)) :
    ∃ b, v = .bool b := by
  simp only [items, List.mem_map, Prod.mk.injEq] at h
  obtain ⟨p, -, -, rfl⟩ := h
  exact ⟨_, rfl⟩

/-- The name an enumeration gives to a number is that of the entry with this number. -/
theorem getStr_iff {e : Enum} (h : Fair e) (v : CV) (k : String) :
    e.getStr v = .ok k ↔ ∃ u, (k, u) ∈ items e ∧ v.eqInt = u.eqInt := by
  cases e with
  | ints m =>
    have hb : Registry.Spec.Bij m := h.1
    cases hv : v.eqInt with
    | none =>
      simp only [Enum.getStr, hv]
      constructor
      · intro h; cases h
      · rintro ⟨u, hu, e⟩
        obtain ⟨i, rfl⟩ := items_ints hu
        cases e
    | some i =>
      simp only [Enum.getStr, hv, Registry.getStr]
      constructor
      · intro hk
        cases hn : m.nameOf (.id i) with
        | none => rw [hn] at hk; cases hk
        | some n =>
          rw [hn] at hk
          cases hk
          exact ⟨.int i, (fair_ints h).mpr ((hb i k).mp hn), rfl⟩
      · rintro ⟨u, hu, e⟩
        obtain ⟨j, rfl⟩ := items_ints hu
        cases e
        rw [(hb i k).mpr ((fair_ints h).mp hu)]
  | bools m =>
    have hb : Registry.Spec.Bij m := h.1
    have key : ∀ b : Bool, Registry.getStr m (.id b) = .ok k ↔ (k, CV.bool b) ∈ items (.bools m) := by
      intro b
      rw [fair_bools h]
      unfold Registry.getStr
      rw [← hb b k]
      cases m.nameOf (.id b) <;> simp
    cases hv : v.eqInt with
    | none =>
      simp only [Enum.getStr, hv]
      constructor
      · intro h; cases h
      · rintro ⟨u, hu, e⟩
        obtain ⟨i, rfl⟩ := items_bools hu
        cases e
    | some i =>
      simp only [Enum.getStr, hv]
      by_cases h0 : i = 0
      · subst h0
        rw [if_pos rfl, key]
        constructor
        · intro hm; exact ⟨_, hm, rfl⟩
        · rintro ⟨u, hu, e⟩
          obtain ⟨b, rfl⟩ := items_bools hu
          cases b
          · exact hu
          · cases e
      · by_cases h1 : i = 1
        · subst h1
          rw [if_neg h0, if_pos rfl, key]
          constructor
          · intro hm; exact ⟨_, hm, rfl⟩
          · rintro ⟨u, hu, e⟩
            obtain ⟨b, rfl⟩ := items_bools hu
            cases b
            · cases e
            · exact hu
        · rw [if_neg h0, if_neg h1]
          constructor
          · intro h; cases h
          · rintro ⟨u, hu, e⟩
            obtain ⟨b, rfl⟩ := items_bools hu
            cases b <;> simp [CV.eqInt] at e <;> omega

/-- The enumeration of a target. -/
def enumOf : Target → Option Enum
  | .chan c => c.enum
  | .field f => f.enum

/-- Where a drop-down comes from. -/
theorem select_row {E : Env} {ui : Ui} {σ : State} {name id : String} {opts : List (String × CV)}
    {sel : List String} {t : Target} (ht : E.fieldOrChannel (.name name) = some t)
    (h : .select id opts sel ∈ row E ui σ name) :
    ∃ e cur, enumOf t = some e ∧ opts = items e ∧
      sel = ((items e).filter fun p => cur.eqInt == p.2.eqInt).map (·.1) ∧
      match t with
      | .chan c => (E.prim c.slot).kind ≠ .bool ∧ cur = (σ c.slot).toCV
      | .field f => f.width ≠ 1 ∧ cur = .int (Bits.readField (σ f.slot).raw f.index f.width) := by
  have hc := row_commandable ht h
  cases t with
  | chan c =>
    simp only [row, ht, chanControls] at h
    have hc' : c.commandable = true := hc
    rw [if_pos hc'] at h
    split at h
    · cases hd : ui.default name <;> simp [hd] at h
    · rename_i hk
      cases he : c.enum with
      | none =>
        rw [he] at h
        cases hd : ui.default name <;> cases hs : ui.slider name <;> simp [hd, hs] at h
      | some e =>
        rw [he] at h
        simp only [dropdown, List.mem_singleton, Control.select.injEq] at h
        exact ⟨e, _, he, h.2.1, h.2.2, hk, rfl⟩
  | field f =>
    simp only [row, ht, fieldControls] at h
    have hc' : f.commandable = true := hc
    rw [if_pos hc'] at h
    split at h
    · simp at h
    · rename_i hk
      cases he : f.enum with
      | none => rw [he] at h; simp at h
      | some e =>
        rw [he] at h
        simp only [dropdown, List.mem_singleton, Control.select.injEq] at h
        exact ⟨e, _, he, h.2.1, h.2.2, hk, rfl⟩

/-- Every enumeration of the environment is fair. -/
def AllFair (E : Env) : Prop :=
  (∀ n c e, dget E.chans n = some c → c.enum = some e → Fair e) ∧
  (∀ n f e, dget E.fields n = some f → f.enum = some e → Fair e)

theorem fair_target {E : Env} (hF : AllFair E) {key : Key Int} {t : Target} {e : Enum}
    (ht : E.target key = some t) (he : enumOf t = some e) : Fair e := by
  cases t with
  | chan c =>
    obtain ⟨n, -, -, h⟩ := target_chan ht
    exact hF.1 n c e h he
  | field f =>
    obtain ⟨n, -, h⟩ := target_field ht
    exact hF.2 n f e h he

/-- C91: a drop-down has one option per name of the enumeration, and the option marked as selected is
the current value's name (none, if the value has no name). -/
theorem C91_selected (E : Env) (hF : AllFair E) (ui : Ui) (σ : State) (name : String)
    (h1 : One E name) (t : Target) (ht : E.fieldOrChannel (.name name) = some t)
    (opts : List (String × CV)) (sel : List String) (h : .select name opts sel ∈ row E ui σ name) :
    (∃ e, enumOf t = some e ∧ (opts.map Prod.fst).Nodup ∧
      ∀ key v, (key, v) ∈ opts → e.getStr v = .ok key) ∧
    ∀ key, key ∈ sel ↔ E.value σ (.name name) true false = .ok (.str key) := by
  obtain ⟨e, cur, he, ho, hs, hcur⟩ := select_row ht h
  have htt : E.target (.name name) = some t := by rw [same_target h1, ht]
  have hf := fair_target hF htt he
  refine ⟨⟨e, he, ho ▸ hf.2, fun key v hv => (getStr_iff hf v key).mpr ⟨v, ho ▸ hv, rfl⟩⟩, ?_⟩
  intro key
  have hval : E.value σ (.name name) true false = (e.getStr cur).map .str := by
    cases t with
    | chan c =>
      have he' : c.enum = some e := he
      simp only [Env.value, htt, getChanValue, he', hcur.2]
      rfl
    | field f =>
      have he' : f.enum = some e := he
      simp only [Env.value, htt, getFieldValue, he', hcur.2]
  rw [hval]
  have hm : (e.getStr cur).map CV.str = .ok (.str key) ↔ e.getStr cur = .ok key := by
    cases e.getStr cur <;> simp [Except.map]
  rw [hm, getStr_iff hf, hs]
  simp [List.mem_map, List.mem_filter]

/-- The target can hold this number without scaling. -/
def Holds (sem : Sem) (E : Env) (i : Int) : Target → Prop
  | .chan c => (E.prim c.slot).scaling = [] ∧ match (E.prim c.slot).kind with
    | .int k => Wire.Spec.lo k ≤ i ∧ i ≤ Wire.Spec.hi k
    | .float => sem.rnd i = i
    | .bool => False
  | .field f => 0 ≤ i ∧ i < 2 ^ f.width

theorem getInt_txt {sem : Sem} {txt : CV → String} (hT : Text sem txt) {e : Enum} (hf : Fair e)
    {key : String} {v : CV} {i : Int} (hv : (key, v) ∈ items e) (hi : v.eqInt = some i)
    (hno : ∀ p ∈ items e, p.1 = txt v → p = (key, v)) : e.getInt sem (txt v) = .ok i := by
  cases e with
  | ints m =>
    obtain ⟨j, rfl⟩ := items_ints hv
    cases hi
    have hb : Registry.Spec.Bij m := hf.1
    simp only [Enum.getInt, Registry.getInt, asInt]
    cases hk : m.identifier (.name (txt (.int i))) with
    | some j' =>
      have := hno _ ((fair_ints hf).mpr hk) rfl
      simp only [Prod.mk.injEq, CV.int.injEq] at this
      rw [this.2]
    | none =>
      have hn := (hb i key).mpr ((fair_ints hf).mp hv)
      simp only [Mapping.nameOf] at hn
      simp [hT.int, Mapping.identifier, hn]
  | bools m =>
    obtain ⟨b, rfl⟩ := items_bools hv
    cases hi
    simp only [Enum.getInt, Registry.getBool, asBool]
    cases hk : m.identifier (.name (txt (.bool b))) with
    | some b' =>
      have := hno _ ((fair_bools hf).mpr hk) rfl
      simp only [Prod.mk.injEq, CV.bool.injEq] at this
      rw [this.2]
      rfl
    | none =>
      simp [hT.bool]
      rfl

/-- C91: choosing an option of a drop-down sets the channel or field to the option's name and touches
nothing else. The number must fit without scaling, and no other entry may be named like the
option's number. -/
theorem C91_choose_partial (sem : Sem) (txt : CV → String) (hT : Text sem txt) (E : Env)
    (hE : Spec.WF E) (hF : AllFair E) (ui : Ui) (σ : State) (hσ : Spec.Typed sem E σ) (name : String)
    (h1 : One E name) (t : Target) (ht : E.fieldOrChannel (.name name) = some t)
    (opts : List (String × CV)) (sel : List String) (h : .select name opts sel ∈ row E ui σ name)
    (key : String) (v : CV) (hv : (key, v) ∈ opts) (i : Int) (hi : v.eqInt = some i)
    (hh : Holds sem E i t) (hno : ∀ p ∈ opts, p.1 = txt v → p = (key, v)) :
    let r := handle (H := Unit) sem E [] σ (setArgs name (txt v))
    r.2.2 = .ok (.success none) ∧ (∀ y, E.value r.1 (.name name) true y = .ok (.str key)) ∧
    ∀ key' t', E.target key' = some t' → Spec.Apart t t' →
      ∀ x y, E.value r.1 key' x y = E.value σ key' x y := by
  obtain ⟨e, cur, he, ho, -, hcur⟩ := select_row ht h
  subst ho
  have htt : E.target (.name name) = some t := by rw [same_target h1, ht]
  have hf := fair_target hF htt he
  have hc := row_commandable ht h
  have hg := getInt_txt hT hf hv hi hno
  have hstr : ∀ u : CV, u.eqInt = some i → e.getStr u = .ok key := fun u hu =>
    (getStr_iff hf u key).mpr ⟨v, hv, by rw [hu, hi]⟩
  have main : ∃ σ', E.set sem σ (.name name) (.str (txt v)) true = .ok σ' ∧
      ∀ y, E.value σ' (.name name) true y = .ok (.str key) := by
    cases t with
    | field f =>
      have he' : f.enum = some e := he
      obtain ⟨k, hk, hin⟩ := WF.field hE htt
      refine ⟨putField E σ f i, ?_, ?_⟩
      · simp [Env.set, htt, setField, fieldInt, he', hg, Except.map]
      · intro y
        have hr : Bits.readField (putField E σ f i f.slot).raw f.index f.width = i := by
          rw [read_put hk hin, Int.emod_eq_of_lt hh.1 hh.2]
        simp only [Env.value, htt, getFieldValue, hr, he', hstr (.int i) rfl, Except.map]
    | chan c =>
      have he' : c.enum = some e := he
      obtain ⟨hs, hh⟩ := hh
      cases hk : (E.prim c.slot).kind with
      | bool => exact absurd hk hcur.1
      | int k =>
        rw [hk] at hh
        have hr : Scaling.pyRound ((i : Int) : Rat) = i := Scaling.pyRound_int i
        refine ⟨σ.put c.slot (.int i), ?_, ?_⟩
        · simp [Env.set, htt, setChan, resolve, he', hk, hg, Except.map, assign, primInvert, hs,
            invertCV, CV.rat, hr, clamp_in k i hh, store, wrap_in k i hh]
        · intro y
          simp only [Env.value, htt, getChanValue, put_self, primScaled, hs, PV.toCV, he', ite_self,
            hstr (.int i) rfl, Except.map]
      | float =>
        rw [hk] at hh
        have hh' : sem.rnd (i : Rat) = i := hh
        refine ⟨σ.put c.slot (.num (some i)), ?_, ?_⟩
        · simp [Env.set, htt, setChan, resolve, he', hk, hg, Except.map, assign, primInvert, hs,
            invertCV, store, hh']
        · intro y
          have : (CV.num (some (i : Rat))).eqInt = some i := by simp [CV.eqInt]
          simp only [Env.value, htt, getChanValue, put_self, primScaled, hs, PV.toCV, he', ite_self,
            hstr _ this, Except.map]
  obtain ⟨σ', hset, hval⟩ := main
  obtain ⟨p1, p2⟩ := set_runs ht hc hset
  refine ⟨p2, fun y => by rw [p1]; exact hval y, ?_⟩
  intro key' t' ht' hd x y
  rw [p1]
  exact C35_frame sem E hE σ σ' hσ (.name name) key' t t' htt ht' hd _ _ hset x y

/-! ### Reset buttons -/

/-- A default that the channel can hold without scaling, whose text stands for itself. -/
def Plain (sem : Sem) (txt : CV → String) (E : Env) (c : Chan) (v : CV) : Prop :=
  (E.prim c.slot).scaling = [] ∧ match (E.prim c.slot).kind, v with
  | .int k, .int i => Wire.Spec.lo k ≤ i ∧ i ≤ Wire.Spec.hi k
  | .float, .num (some q) => sem.rnd q = q
  | .bool, .bool b => ∀ e, c.enum = some e →
      ∃ m, e = .bools m ∧ ∀ b', m.identifier (.name (txt v)) = some b' → b' = b
  | _, _ => False

/-- Where a reset button comes from. -/
theorem reset_row {E : Env} {ui : Ui} {σ : State} {name id : String} {v : CV}
    (h : .reset id v ∈ row E ui σ name) :
    ∃ c, E.fieldOrChannel (.name name) = some (.chan c) ∧ c.commandable = true ∧ id = name ∧
      ui.default name = some v ∧ ((E.prim c.slot).kind = .bool ∨ c.enum = none) := by
  cases ht : E.fieldOrChannel (.name name) with
  | none => simp [row, ht] at h
  | some t =>
    have hc := row_commandable ht h
    cases t with
    | chan c =>
      have hc' : c.commandable = true := hc
      simp only [row, ht, chanControls] at h
      rw [if_pos hc'] at h
      refine ⟨c, rfl, hc', ?_⟩
      split at h
      · rename_i hk
        cases hd : ui.default name <;> simp [hd] at h
        exact ⟨h.1, by rw [h.2], .inl hk⟩
      · cases he : c.enum with
        | none =>
          rw [he] at h
          cases hd : ui.default name <;> cases hs : ui.slider name <;> simp [hd, hs] at h
          · exact ⟨h.1, by rw [h.2], .inr rfl⟩
          · exact ⟨h.1, by rw [h.2], .inr rfl⟩
        | some e => rw [he] at h; simp [dropdown] at h
    | field f =>
      have hc' : f.commandable = true := hc
      simp only [row, ht, fieldControls] at h
      rw [if_pos hc'] at h
      split at h
      · simp at h
      · cases he : f.enum <;> rw [he] at h <;> simp [dropdown] at h

/-- What setting a plain default stores. -/
theorem plain_set {sem : Sem} {txt : CV → String} (hT : Text sem txt) {E : Env} {c : Chan} {v : CV}
    (hp : Plain sem txt E c v) (hk' : (E.prim c.slot).kind = .bool ∨ c.enum = none) :
    ∃ w : PV, w.toCV = v ∧ ∀ σ key, E.target key = some (.chan c) →
      E.set sem σ key (.str (txt v)) true = .ok (σ.put c.slot w) := by
  obtain ⟨hs, hp⟩ := hp
  cases hk : (E.prim c.slot).kind with
  | int k =>
    have he : c.enum = none := by
      rcases hk' with h | h
      · rw [hk] at h; cases h
      · exact h
    rw [hk] at hp
    cases v with
    | int i =>
      have hr : Scaling.pyRound ((i : Int) : Rat) = i := Scaling.pyRound_int i
      refine ⟨.int i, rfl, fun σ key htt => ?_⟩
      simp [Env.set, htt, setChan, resolve, he, hk, hs, hT.int, assign, primInvert,
        invertCV, CV.rat, hr, clamp_in k i hp, store, wrap_in k i hp]
    | bool b => exact absurd hp id
    | num q => exact absurd hp id
    | str s => exact absurd hp id
  | float =>
    have he : c.enum = none := by
      rcases hk' with h | h
      · rw [hk] at h; cases h
      · exact h
    rw [hk] at hp
    cases v with
    | num q =>
      cases q with
      | none => exact absurd hp id
      | some q =>
        have hp' : sem.rnd q = q := hp
        refine ⟨.num (some q), rfl, fun σ key htt => ?_⟩
        simp [Env.set, htt, setChan, resolve, he, hk, hs, hT.num, assign, primInvert,
          invertCV, store, hp']
    | bool b => exact absurd hp id
    | int q => exact absurd hp id
    | str s => exact absurd hp id
  | bool =>
    rw [hk] at hp
    cases v with
    | bool b =>
      refine ⟨.bool b, rfl, fun σ key htt => ?_⟩
      have hp' : ∀ e, c.enum = some e →
        ∃ m, e = .bools m ∧ ∀ b', m.identifier (.name (txt (.bool b))) = some b' → b' = b := hp
      cases he : c.enum with
      | none =>
        simp [Env.set, htt, setChan, resolve, he, hk, hs, hT.bool, assign, primInvert,
          invertCV, store]
      | some e =>
        obtain ⟨m, rfl, hm⟩ := hp' e he
        have hg : Enum.getBool sem (.bools m) (txt (.bool b)) = .ok b := by
          simp only [Enum.getBool, Registry.getBool, asBool]
          cases hi : m.identifier (.name (txt (.bool b))) with
          | none => simp [hT.bool]
          | some b' => simp [hm b' hi]
        simp [Env.set, htt, setChan, resolve, he, hk, hs, hg, Except.map, assign, primInvert,
          invertCV, store]
    | num q => exact absurd hp id
    | int q => exact absurd hp id
    | str s => exact absurd hp id

/-- What pressing a reset button does to the storage. -/
theorem press_reset {sem : Sem} {txt : CV → String} (hT : Text sem txt) {E : Env} {ui : Ui}
    {σ₀ : State} {name : String} (h1 : One E name) {v : CV} {c : Chan}
    (h : .reset name v ∈ row E ui σ₀ name) (hc : E.fieldOrChannel (.name name) = some (.chan c))
    (hp : Plain sem txt E c v) :
    ∃ w : PV, w.toCV = v ∧ ∀ σ,
      (handle (H := Unit) sem E [] σ (setArgs name (txt v))).1 = σ.put c.slot w ∧
      (handle (H := Unit) sem E [] σ (setArgs name (txt v))).2.2 = .ok (.success none) := by
  obtain ⟨c', hc', hcom, -, -, hk⟩ := reset_row h
  rw [hc] at hc'
  cases hc'
  obtain ⟨w, hw, hset⟩ := plain_set hT hp hk
  have htt : E.target (.name name) = some (.chan c) := by rw [same_target h1, hc]
  exact ⟨w, hw, fun σ => set_runs hc hcom (hset σ _ htt)⟩

theorem value_put {E : Env} {σ : State} {key : Key Int} {c : Chan} {w : PV}
    (ht : E.target key = some (.chan c)) (hs : (E.prim c.slot).scaling = []) (hw : σ c.slot = w)
    (y : Bool) : E.value σ key false y = .ok w.toCV := by
  simp [Env.value, ht, getChanValue_false, primScaled, hs, hw]

/-- C91: pressing a reset button makes the channel's value its default and touches nothing else. -/
theorem C91_reset_partial (sem : Sem) (txt : CV → String) (hT : Text sem txt) (E : Env)
    (hE : Spec.WF E) (ui : Ui) (σ : State) (hσ : Spec.Typed sem E σ) (name : String) (h1 : One E name)
    (v : CV) (h : .reset name v ∈ row E ui σ name) (c : Chan)
    (hc : E.fieldOrChannel (.name name) = some (.chan c)) (hp : Plain sem txt E c v) :
    let r := handle (H := Unit) sem E [] σ (setArgs name (txt v))
    ui.default name = some v ∧
    r.2.2 = .ok (.success none) ∧ (∀ y, E.value r.1 (.name name) false y = .ok v) ∧
    ∀ key' t', E.target key' = some t' → Spec.Apart (.chan c) t' →
      ∀ x y, E.value r.1 key' x y = E.value σ key' x y := by
  obtain ⟨c', hc', hcom, -, hd, hk⟩ := reset_row h
  rw [hc] at hc'
  cases hc'
  obtain ⟨w, rfl, hset⟩ := plain_set hT hp hk
  have htt : E.target (.name name) = some (.chan c) := by rw [same_target h1, hc]
  obtain ⟨p1, p2⟩ := set_runs hc hcom (hset σ _ htt)
  refine ⟨hd, p2, fun y => ?_, fun key' t' ht' ha x y => ?_⟩
  · rw [p1]
    exact value_put htt hp.1 (put_self _ _ _) y
  · rw [p1]
    exact C35_frame sem E hE σ _ hσ (.name name) key' (.chan c) t' htt ht' ha _ _ (hset σ _ htt) x y

theorem mem_resets {E : Env} {ui : Ui} {σ : State} {names : List String} {n : String} {v : CV} :
    (n, v) ∈ resets E ui σ names ↔ n ∈ names ∧ .reset n v ∈ row E ui σ n := by
  simp only [resets, List.mem_flatMap, List.mem_filterMap]
  constructor
  · rintro ⟨a, ha, ctl, hctl, he⟩
    cases ctl with
    | reset id u =>
      simp only [Option.some.injEq, Prod.mk.injEq] at he
      obtain ⟨rfl, rfl⟩ := he
      obtain ⟨c, -, -, hid, -⟩ := reset_row hctl
      subst hid
      exact ⟨ha, hctl⟩
    | toggle _ => cases he
    | select _ _ _ => cases he
    | input _ => cases he
    | slider _ => cases he
  · rintro ⟨ha, hctl⟩
    exact ⟨n, ha, _, hctl, rfl⟩

/-- The buttons pressed by `set-defaults`: each a reset button of its own row, for a plain default. -/
def Ready (sem : Sem) (txt : CV → String) (E : Env) (ui : Ui) (σ₀ : State) (p : String × CV) : Prop :=
  One E p.1 ∧ .reset p.1 p.2 ∈ row E ui σ₀ p.1 ∧
    ∃ c, E.fieldOrChannel (.name p.1) = some (.chan c) ∧ Plain sem txt E c p.2

theorem pressAll_other {sem : Sem} {txt : CV → String} (hT : Text sem txt) {E : Env} {ui : Ui}
    {σ₀ : State} (l : List (String × CV)) (hl : ∀ p ∈ l, Ready sem txt E ui σ₀ p) (σ : State) (j : Nat)
    (hj : ∀ p ∈ l, ∀ c, E.fieldOrChannel (.name p.1) = some (.chan c) → c.slot ≠ j) :
    pressAll sem txt E σ l j = σ j := by
  induction l generalizing σ with
  | nil => rfl
  | cons p l ih =>
    obtain ⟨n, v⟩ := p
    obtain ⟨h1, h2, c, hc, hp⟩ := hl _ (List.mem_cons_self ..)
    obtain ⟨w, -, hw⟩ := press_reset hT h1 h2 hc hp
    rw [pressAll, ih (fun p hp => hl p (List.mem_cons_of_mem _ hp)) _
      (fun p hp => hj p (List.mem_cons_of_mem _ hp)), (hw σ).1]
    exact put_ne _ _ (fun e => hj _ (List.mem_cons_self ..) c hc e.symm)

theorem pressAll_sets {sem : Sem} {txt : CV → String} (hT : Text sem txt) {E : Env} {ui : Ui}
    {σ₀ : State} (l : List (String × CV)) (hl : ∀ p ∈ l, Ready sem txt E ui σ₀ p) (σ : State)
    (hd : ∀ p ∈ l, ∀ q ∈ l, ∀ c d, E.fieldOrChannel (.name p.1) = some (.chan c) →
      E.fieldOrChannel (.name q.1) = some (.chan d) → c.slot = d.slot → p = q) :
    ∀ p ∈ l, ∀ c, E.fieldOrChannel (.name p.1) = some (.chan c) →
      (pressAll sem txt E σ l c.slot).toCV = p.2 := by
  induction l generalizing σ with
  | nil => intro p hp; cases hp
  | cons p l ih =>
    have ih' := ih (fun p hp => hl p (List.mem_cons_of_mem _ hp))
      (handle (H := Unit) sem E [] σ (setArgs p.1 (txt p.2))).1
      (fun a ha b hb => hd a (List.mem_cons_of_mem _ ha) b (List.mem_cons_of_mem _ hb))
    intro q hq c hc
    by_cases hql : q ∈ l
    · exact ih' q hql c hc
    · have hqp : q = p := by
        rcases List.mem_cons.mp hq with h | h
        · exact h
        · exact absurd h hql
      subst hqp
      obtain ⟨h1, h2, c', hc', hp⟩ := hl _ (List.mem_cons_self ..)
      rw [hc] at hc'
      cases hc'
      obtain ⟨w, hwv, hw⟩ := press_reset hT h1 h2 hc hp
      rw [pressAll, pressAll_other hT l (fun p hp => hl p (List.mem_cons_of_mem _ hp)) _ c.slot, (hw σ).1,
        put_self, hwv]
      intro a ha d hda e
      have := hd a (List.mem_cons_of_mem _ ha) q hq d c hda hc e
      exact hql (this ▸ ha)

/-- C91: the `set-defaults` button: afterwards every channel that has a reset button holds its
default, and every primitive of no such channel is as before. Channels with reset buttons have
primitives of their own, defaults fit without scaling. -/
theorem C91_all_defaults_partial (sem : Sem) (txt : CV → String) (hT : Text sem txt) (E : Env) (ui : Ui)
    (σ : State) (names : List String) (h1 : ∀ n ∈ names, One E n)
    (hp : ∀ n ∈ names, ∀ v c, .reset n v ∈ row E ui σ n → E.fieldOrChannel (.name n) = some (.chan c) →
      Plain sem txt E c v)
    (hd : ∀ n ∈ names, ∀ n' ∈ names, ∀ c d, E.fieldOrChannel (.name n) = some (.chan c) →
      E.fieldOrChannel (.name n') = some (.chan d) → c.slot = d.slot → n = n') :
    let σ' := pressAll sem txt E σ (resets E ui σ names)
    (∀ n ∈ names, ∀ c v, E.fieldOrChannel (.name n) = some (.chan c) → .reset n v ∈ row E ui σ n →
      ∀ y, E.value σ' (.name n) false y = .ok v) ∧
    ∀ j, (∀ n ∈ names, ∀ c v, E.fieldOrChannel (.name n) = some (.chan c) →
      .reset n v ∈ row E ui σ n → c.slot ≠ j) → σ' j = σ j := by
  intro σ'
  have hready : ∀ p ∈ resets E ui σ names, Ready sem txt E ui σ p := by
    rintro ⟨n, v⟩ hm
    obtain ⟨hn, hr⟩ := mem_resets.mp hm
    obtain ⟨c, hc, -⟩ := reset_row hr
    exact ⟨h1 n hn, hr, c, hc, hp n hn v c hr hc⟩
  constructor
  · intro n hn c v hc hr y
    have := pressAll_sets hT _ hready σ (by
      rintro ⟨a, u⟩ ha ⟨b, w⟩ hb c d hca hdb e
      obtain ⟨ha1, ha2⟩ := mem_resets.mp ha
      obtain ⟨hb1, hb2⟩ := mem_resets.mp hb
      have hab : a = b := hd a ha1 b hb1 c d hca hdb e
      subst hab
      obtain ⟨_, _, _, _, hu, _⟩ := reset_row ha2
      obtain ⟨_, _, _, _, hw, _⟩ := reset_row hb2
      rw [hu] at hw
      cases hw
      rfl) (n, v) (mem_resets.mpr ⟨hn, hr⟩) c hc
    have hv : (σ' c.slot).toCV = v := this
    rw [← hv]
    exact value_put (by rw [same_target (h1 n hn), hc]) (hp n hn v c hr hc).1 rfl y
  · intro j hj
    apply pressAll_other hT _ hready
    rintro ⟨n, v⟩ hm c hc
    obtain ⟨hn, hr⟩ := mem_resets.mp hm
    exact hj n hn c v hc hr

/-! ### Where it fails -/

/-- C91 fails for channels with scaling: `set_default` stores the default in the primitive, but the
reset button's command sets the scaled value. For a float channel with linear scaling, the
default comes back only if the scaling leaves it alone. -/
theorem C91_scaled_reset_fails (sem : Sem) (txt : CV → String) (hT : Text sem txt)
    (hrnd : ∀ q, sem.rnd q = q) (E : Env) (ui : Ui) (σ : State) (name : String) (h1 : One E name)
    (q : Rat) (h : .reset name (.num (some q)) ∈ row E ui σ name) (c : Chan)
    (hc : E.fieldOrChannel (.name name) = some (.chan c)) (hk : (E.prim c.slot).kind = .float)
    (a b : Rat) (hb : b ≠ 0) (hs : (E.prim c.slot).scaling = [a, b]) :
    E.value (handle (H := Unit) sem E [] σ (setArgs name (txt (.num (some q))))).1 (.name name) false false
      = .ok (.num (some q)) ↔ a + b * q = q := by
  obtain ⟨c', hc', hcom, -, -, hk'⟩ := reset_row h
  rw [hc] at hc'
  cases hc'
  have he : c.enum = none := by
    rcases hk' with h | h
    · rw [hk] at h; cases h
    · exact h
  have htt : E.target (.name name) = some (.chan c) := by rw [same_target h1, hc]
  have hset : E.set sem σ (.name name) (.str (txt (.num (some q)))) true =
      .ok (σ.put c.slot (.num (some ((q - a) / b)))) := by
    simp [Env.set, htt, setChan, resolve, he, hk, hs, hT.num, assign, primInvert, invertCV, CV.rat,
      Scaling.unscale, hb, Except.map, store, hrnd]
  rw [(set_runs hc hcom hset).1]
  simp only [Env.value, htt, getChanValue_false, put_self, PV.toCV, Bool.false_eq_true, if_false,
    Except.ok.injEq, CV.num.injEq, Option.some.injEq]
  rw [div_eq_iff hb]
  constructor <;> intro h <;> linarith

/-- C91 fails for enumerated channels that are not boolean: whatever their default, their row has no
reset button, so `set-defaults` leaves their value as it is. -/
theorem C91_enum_reset_fails (E : Env) (ui : Ui) (σ : State) (name : String) (c : Chan)
    (hc : E.fieldOrChannel (.name name) = some (.chan c)) (hk : (E.prim c.slot).kind ≠ .bool)
    (e : Enum) (he : c.enum = some e) (names : List String) :
    ∀ v, (name, v) ∉ resets E ui σ names := by
  intro v hm
  obtain ⟨c', hc', -, -, -, h⟩ := reset_row (mem_resets.mp hm).2
  rw [hc] at hc'
  cases hc'
  rcases h with h | h
  · exact hk h
  · rw [he] at h; cases h

/-- C91 fails for an enumeration with an entry named like another entry's number: choosing the other
one sets this one. -/
theorem C91_numeric_name_fails (sem : Sem) (txt : CV → String) (E : Env) (hE : Spec.WF E)
    (ui : Ui) (σ : State) (name : String) (h1 : One E name) (c : Chan)
    (hc : E.fieldOrChannel (.name name) = some (.chan c)) (k : IntKind)
    (hk : (E.prim c.slot).kind = .int k) (hs : (E.prim c.slot).scaling = []) (m : Mapping Int)
    (hm : c.enum = some (.ints m)) (opts : List (String × CV)) (sel : List String)
    (h : .select name opts sel ∈ row E ui σ name) (key : String) (v j : Int)
    (hv : m.identifier (.name key) = some v) (hne : txt (.int v) ≠ key)
    (hj : m.identifier (.name (txt (.int v))) = some j)
    (hr : Wire.Spec.lo k ≤ j ∧ j ≤ Wire.Spec.hi k) :
    j ≠ v ∧
    E.value (handle (H := Unit) sem E [] σ (setArgs name (txt (.int v)))).1 (.name name) true false
      = .ok (.str (txt (.int v))) := by
  have htt : E.target (.name name) = some (.chan c) := by rw [same_target h1, hc]
  obtain ⟨n, -, -, hn⟩ := target_chan htt
  have hb : Registry.Spec.Bij m := hE.chanEnum n c _ hn hm
  constructor
  · intro e
    subst e
    have h1 := (hb j key).mpr hv
    have h2 := (hb j (txt (.int j))).mpr hj
    rw [h1] at h2
    cases h2
    exact hne rfl
  · obtain ⟨σ', hset, hval, -⟩ := C35_channel_enum sem E hE σ (.name name) c htt k hk hs m hm
      (txt (.int v)) j hj hr true false
    rw [(set_runs hc (row_commandable hc h) hset).1]
    exact hval

/-! ### A concrete table -/

/-- A way of writing numbers: one letter per unit. -/
def caseTxt : CV → String
  | .int v => String.ofList (List.replicate v.toNat 'p' ++ List.replicate (-v).toNat 'm')
  | .bool b => if b then "True" else "False"
  | .num (some q) => String.ofList (List.replicate q.num.toNat 'p' ++ List.replicate (-q.num).toNat 'm'
      ++ List.replicate q.den 'd')
  | .num none => "nan"
  | .str s => s

/-- Reading it back; identity storage. -/
def caseSem : Sem where
  parseInt s := some ((s.toList.count 'p' : Int) - s.toList.count 'm')
  parseFloat s := some (some (((s.toList.count 'p' : Int) - s.toList.count 'm' : Int) / (s.toList.count 'd' : Rat)))
  parseBool s := if s = "True" then some true else if s = "False" then some false else none
  rnd := id

theorem case_text : Text caseSem caseTxt := by
  refine ⟨fun v => ?_, fun b => ?_, fun q => ?_⟩
  · simp only [caseSem, caseTxt, String.toList_ofList, List.count_append, List.count_replicate]
    simp
    omega
  · cases b <;> rfl
  · simp only [caseSem, caseTxt, String.toList_ofList, List.count_append, List.count_replicate]
    have h : ∀ a : Rat, max a 0 - max (-a) 0 = a := by
      intro a
      rcases le_total a 0 with h | h
      · rw [max_eq_right h, max_eq_left (by linarith)]; linarith
      · rw [max_eq_left h, max_eq_right (by linarith)]; linarith
    simp
    rw [h]
    exact Rat.num_div_den q

/-- The demo environment's drop-down `a`, toggle `x`, scaled input `s`, input `d` with a reset button. -/
def caseUi : Ui where
  default n := if n = "d" then some (.num (some (1 / 2))) else if n = "s" then some (.int 5) else none
  slider n := n == "s"

theorem C91_cases :
    (row demoEnv caseUi demoState "a").map Control.primary = [true]
    ∧ row demoEnv caseUi demoState "b" = []
    ∧ .toggle "x" ∈ row demoEnv caseUi demoState "x"
    ∧ .select "a" [("off", .int 0), ("on", .int 7)] ["off"] ∈ row demoEnv caseUi demoState "a"
    ∧ row demoEnv caseUi demoState "s" = [.input "s", .reset "s" (.int 5), .slider "s"]
    ∧ resets demoEnv caseUi demoState ["a", "b", "x", "y", "s", "d"]
        = [("s", .int 5), ("d", .num (some (1 / 2)))]
    ∧ AllFair demoEnv ∧ (∀ n, One demoEnv n)
    ∧ Spec.Typed caseSem demoEnv demoState
    ∧ demoEnv.value demoState (.name "a") true true = .ok (.str "off") := by
  refine ⟨rfl, rfl, ?_, ?_, rfl, rfl, ⟨?_, ?_⟩, ?_, ?_, rfl⟩
  · exact List.mem_singleton.mpr rfl
  · exact List.mem_singleton.mpr rfl
  · intro n c e hn he
    refine ⟨demo_wf.chanEnum n c e hn he, ?_⟩
    have hm := dget_mem hn
    simp only [demoEnv, List.mem_cons, List.not_mem_nil, or_false, Prod.mk.injEq] at hm
    rcases hm with ⟨rfl, rfl⟩ | ⟨rfl, rfl⟩ | ⟨rfl, rfl⟩ | ⟨rfl, rfl⟩
    · cases he
      decide
    all_goals cases he
  · intro n c e hn he
    have hm := dget_mem hn
    simp only [demoEnv, List.mem_cons, List.not_mem_nil, or_false, Prod.mk.injEq] at hm
    rcases hm with ⟨rfl, rfl⟩ | ⟨rfl, rfl⟩ <;> cases he
  · intro n
    by_cases hx : dget demoEnv.fields n = none
    · exact .inl hx
    · right
      cases hf : dget demoEnv.fields n with
      | none => exact absurd hf hx
      | some f =>
        have hm := dget_mem hf
        simp only [demoEnv, List.mem_cons, List.not_mem_nil, or_false, Prod.mk.injEq] at hm
        rcases hm with ⟨rfl, -⟩ | ⟨rfl, -⟩ <;> rfl
  · intro j
    match j with
    | 0 => exact ⟨by decide, by decide⟩
    | 1 => trivial
    | 2 => exact ⟨by decide, by decide⟩
    | 3 => exact ⟨by decide, by decide⟩
    | j + 4 => exact rfl

/-- Choosing `on`, by the theorem. -/
example : demoEnv.value (handle (H := Unit) caseSem demoEnv [] demoState (setArgs "a" (caseTxt (.int 7)))).1
    (.name "a") true true = .ok (.str "on") := by
  obtain ⟨-, -, -, h, -, -, hF, h1, hσ, -⟩ := C91_cases
  refine (C91_choose_partial caseSem caseTxt case_text demoEnv demo_wf hF caseUi demoState hσ "a" (h1 "a")
    _ rfl _ _ h "on" (.int 7) (by simp) 7 rfl ⟨rfl, by decide, by decide⟩ ?_).2.1 true
  intro p hp he
  simp only [List.mem_cons, List.not_mem_nil, or_false] at hp
  rcases hp with rfl | rfl
  · exact absurd he (by decide +kernel)
  · rfl

/-- The reset button of `d`, by the theorem. -/
example (σ : State) (hσ : Spec.Typed caseSem demoEnv σ) :
    demoEnv.value (handle (H := Unit) caseSem demoEnv [] σ (setArgs "d" (caseTxt (.num (some (1 / 2)))))).1
      (.name "d") false true = .ok (.num (some (1 / 2))) := by
  obtain ⟨-, -, -, -, -, -, -, h1, -⟩ := C91_cases
  have h : .reset "d" (.num (some (1 / 2))) ∈ row demoEnv caseUi σ "d" :=
    List.mem_cons_of_mem _ (List.mem_singleton.mpr rfl)
  exact (C91_reset_partial caseSem caseTxt case_text demoEnv demo_wf caseUi σ hσ "d" (h1 "d") _ h _ rfl
    ⟨rfl, rfl⟩).2.2.1 true

end Verif.Controls
