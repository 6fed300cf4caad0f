import Verif.Dict
import Verif.Base
/-!
C136: channels and bit fields share their names: `channel/environment/base.py` 112–123, 162–166, 189–202 and
214–228 (`set`, `value`, `field_or_channel`), `primitives/field/manager/base.py` 89–133 and 164–209 (`add`, `set`,
`get_fields`, `get_field`, `has_field`), `registry/__init__.py` 69–92 and `registry/name.py` 37–62 as far as a name that is
there already is concerned, `channel/environment/create.py` 50–79.

A channel or field is an object (a number); `store` is what it holds (raw values, C11 and C03 on what fits). Names are
valid ones (C120). In a group names are distinct (the keys of a dictionary). Texts are resolved by the enumerations'
`get_int` (`enumInt`), `StrToBool` (`toBool`) and `int` (`toInt`), all arbitrary here.
-/
namespace Verif.Shared
open Verif

structure Field where
  name : String
  obj : Nat
  enum : Option Nat
deriving DecidableEq, Repr

/-- `channels.items`, `fields.fields`, `fields.lookup`, `fields.enum_lookup` and the values held. -/
structure Env where
  chans : List (String × Nat)
  groups : List (List Field)
  lookup : List (String × Nat)
  enums : List (String × Nat)
  store : Nat → Int

def Env.empty : Env := ⟨[], [], [], [], fun _ => 0⟩

/-- `env.channel`, create.py 50–79 with `register_dict` and `register`, registry/__init__.py 69–92: the name registry gives
the identifier it has for a name, so that only a channel of that name stands in the way. -/
def Env.channel (e : Env) (name : String) (obj : Nat) : Except PyErr Env :=
  if e.chans.any (·.1 == name) then .error .assertion else .ok { e with chans := e.chans ++ [(name, obj)] }

/-- Registering one field of a group, manager/base.py 100–107. -/
def Env.enter (index : Nat) (e : Env) (f : Field) : Env :=
  { e with
    lookup := dset e.lookup f.name index
    enums := match f.enum with
      | some k => dset e.enums f.name k
      | none => e.enums }

/-- `add`, manager/base.py 89–109. `register_name` accepts a name that is there. -/
def Env.add (e : Env) (fields : List Field) : Env :=
  fields.foldl (Env.enter e.groups.length) { e with groups := e.groups ++ [fields] }

/-- `get_field`, manager/base.py 175–186, with `get_fields`, 164–173. -/
def Env.field (e : Env) (name : String) : Option Field := do
  let index ← dget e.lookup name
  let group ← e.groups[index]?
  group.find? fun f => f.name = name

/-- `has_field`, manager/base.py 197–201. -/
def Env.hasField (e : Env) (name : String) : Bool := (dget e.lookup name).isSome

/-- `field_or_channel`, environment/base.py 214–228. -/
def Env.fieldOrChannel (e : Env) (name : String) : Option Nat :=
  match dget e.chans name with
  | some obj => some obj
  | none => (e.field name).map (·.obj)

def Env.write (e : Env) (obj : Nat) (v : Int) : Env := { e with store := fun o => if o = obj then v else e.store o }

/-- `set` of a number, environment/base.py 112–123 and 162–166. -/
def Env.set (e : Env) (name : String) (v : Int) : Except PyErr Env :=
  if e.hasField name then
    match e.field name with
    | some f => .ok (e.write f.obj v)
    | none => .error .key
  else
    match dget e.chans name with
    | some obj => .ok (e.write obj v)
    | none => .error .key

/-- `value` without resolving, environment/base.py 189–202. -/
def Env.value (e : Env) (name : String) : Except PyErr Int :=
  if e.hasField name then
    match e.field name with
    | some f => .ok (e.store f.obj)
    | none => .error .key
  else
    match dget e.chans name with
    | some obj => .ok (e.store obj)
    | none => .error .key

/-- What a text stands for when a field is set, manager/base.py 124–133. -/
def Env.text (enumInt : Nat → String → Option Int) (toBool : String → Option Bool) (toInt : String → Option Int) (e : Env)
    (f : Field) (t : String) : Except PyErr Int :=
  match dget e.enums f.name with
  | some k => match enumInt k t with
    | some v => .ok v
    | none => .error .key
  | none => match toBool t with
    | some b => .ok (if b then 1 else 0)
    | none => match toInt t with
      | some v => .ok v
      | none => .error .value

/-! ### Claims -/

/-- Making channels and groups in any order. -/
inductive Op
  | channel (name : String) (obj : Nat)
  | add (fields : List Field)

def Env.make (e : Env) : Op → Env
  | .channel n o => match e.channel n o with
    | .ok e' => e'
    | .error _ => e
  | .add fs => e.add fs

def Env.made (ops : List Op) : Env := ops.foldl Env.make Env.empty

theorem enter_keep (i : Nat) (fs : List Field) (e : Env) :
    (fs.foldl (Env.enter i) e).chans = e.chans ∧ (fs.foldl (Env.enter i) e).groups = e.groups ∧
    (fs.foldl (Env.enter i) e).store = e.store := by
  induction fs generalizing e with
  | nil => exact ⟨rfl, rfl, rfl⟩
  | cons f fs ih => exact ih (e.enter i f)

theorem enter_lookup (i : Nat) (fs : List Field) (e : Env) (n : String) :
    dget (fs.foldl (Env.enter i) e).lookup n = if n ∈ fs.map (·.name) then some i else dget e.lookup n := by
  induction fs generalizing e with
  | nil => simp
  | cons f fs ih =>
    rw [List.foldl_cons, ih (e.enter i f)]
    by_cases h : n ∈ fs.map (·.name)
    · simp [h]
    · rw [if_neg h]
      by_cases hf : f.name = n
      · subst hf
        simp [Env.enter, dget_dset_self]
      · rw [if_neg (by simp only [List.map_cons, List.mem_cons, not_or]; exact ⟨Ne.symm hf, h⟩)]
        simp only [Env.enter]
        exact dget_dset_ne _ _ _ _ hf

/-- Every name of the look-up is in its group. -/
def Env.Ok (e : Env) : Prop := ∀ n i, dget e.lookup n = some i → ∃ g, e.groups[i]? = some g ∧ ∃ f ∈ g, f.name = n

theorem add_ok (e : Env) (h : e.Ok) (fs : List Field) : (e.add fs).Ok := by
  intro n i hi
  have hk := enter_keep e.groups.length fs { e with groups := e.groups ++ [fs] }
  rw [Env.add] at hi ⊢
  rw [hk.2.1]
  rw [enter_lookup] at hi
  split at hi
  · rename_i hn
    cases hi
    obtain ⟨f, hf, e'⟩ := List.mem_map.1 hn
    exact ⟨fs, by simp, f, hf, e'⟩
  · obtain ⟨g, hg, k⟩ := h n i hi
    refine ⟨g, ?_, k⟩
    have hlt : i < e.groups.length := by
      rcases List.getElem?_eq_some_iff.1 hg with ⟨hlt, _⟩
      exact hlt
    rw [List.getElem?_append_left hlt]
    exact hg

theorem made_ok (ops : List Op) : (Env.made ops).Ok := by
  have key : ∀ (ops : List Op) (e : Env), e.Ok → (ops.foldl Env.make e).Ok := by
    intro ops
    induction ops with
    | nil => exact fun e h => h
    | cons o os ih =>
      intro e h
      refine ih _ ?_
      cases o with
      | channel n o =>
        simp only [Env.make, Env.channel]
        split <;> rename_i hh <;> split at hh <;> cases hh <;> exact h
      | add fs => exact add_ok e h fs
  exact key ops _ (by intro n i h; simp [Env.empty, dget] at h)

theorem field_some {e : Env} (h : e.Ok) {n : String} (hf : e.hasField n = true) : ∃ f, e.field n = some f ∧ f.name = n := by
  rw [Env.hasField] at hf
  obtain ⟨i, hi⟩ := Option.isSome_iff_exists.1 hf
  obtain ⟨g, hg, f, hfg, hn⟩ := h n i hi
  have : (g.find? fun f => f.name = n).isSome := by
    rw [List.find?_isSome]
    exact ⟨f, hfg, by simpa using hn⟩
  obtain ⟨f', hf'⟩ := Option.isSome_iff_exists.1 this
  refine ⟨f', ?_, by simpa using List.find?_some hf'⟩
  simp [Env.field, hi, hg, hf']

/-- C136: however names are shared, what is set under a name is what is read under it, and exactly one object is written. -/
theorem C136_set_value (ops : List Op) (s : Nat → Int) (name : String) (v : Int) (e' : Env)
    (hs : ({ Env.made ops with store := s } : Env).set name v = .ok e') :
    e'.value name = .ok v ∧ ∃ obj, ∀ o, e'.store o = if o = obj then v else s o := by
  have hok : ({ Env.made ops with store := s } : Env).Ok := made_ok ops
  generalize he : ({ Env.made ops with store := s } : Env) = e at hs hok
  have hst : e.store = s := by rw [← he]
  rw [Env.set] at hs
  by_cases hf : e.hasField name = true
  · rw [if_pos hf] at hs
    obtain ⟨f, hff, _⟩ := field_some hok hf
    simp only [hff] at hs
    cases hs
    refine ⟨?_, f.obj, fun o => by simp [Env.write, hst]⟩
    have h1 : (e.write f.obj v).hasField name = true := hf
    have h2 : (e.write f.obj v).field name = some f := hff
    rw [Env.value, if_pos h1]
    simp only [h2]
    simp [Env.write]
  · rw [if_neg hf] at hs
    cases hc : dget e.chans name with
    | none => rw [hc] at hs; cases hs
    | some obj =>
      rw [hc] at hs
      cases hs
      refine ⟨?_, obj, fun o => by simp [Env.write, hst]⟩
      have h1 : ¬ (e.write obj v).hasField name = true := hf
      have h2 : dget (e.write obj v).chans name = some obj := hc
      rw [Env.value, if_neg h1]
      simp only [h2]
      simp [Env.write]

/-- C136, for a name that is not both a channel's and a field's: `field_or_channel`, which commands and look-ups use, gives
the object that `set` writes. -/
theorem C136_same_partial (ops : List Op) (s : Nat → Int) (name : String) (v : Int)
    (hx : ¬ ((Env.made ops).hasField name = true ∧ dget (Env.made ops).chans name ≠ none)) :
    let e : Env := { Env.made ops with store := s }
    (∀ obj, e.fieldOrChannel name = some obj → e.set name v = .ok (e.write obj v)) ∧
    (e.fieldOrChannel name = none → e.set name v = .error .key) := by
  intro e
  have hok : e.Ok := made_ok ops
  have hx' : ¬ (e.hasField name = true ∧ dget e.chans name ≠ none) := hx
  generalize e = e at hok hx'
  rw [Env.fieldOrChannel, Env.set]
  by_cases hf : e.hasField name = true
  · have hc : dget e.chans name = none := by
      cases hc : dget e.chans name with
      | none => rfl
      | some o => exact absurd ⟨hf, by rw [hc]; simp⟩ hx'
    obtain ⟨f, hff, _⟩ := field_some hok hf
    simp only [hc, hff, if_pos hf]
    simp
  · have hn : e.field name = none := by
      have : dget e.lookup name = none := by simpa [Env.hasField] using hf
      simp [Env.field, this]
    cases hc : dget e.chans name with
    | none => simp [hn, hf]
    | some o => simp [hf]

theorem channel_fresh (e : Env) (n : String) (o : Nat) (h : dget e.chans n = none) :
    e.channel n o = .ok { e with chans := e.chans ++ [(n, o)] } := by
  have h' := (dget_none_iff e.chans n).1 h
  rw [Env.channel, if_neg (by rw [h']; decide)]

/-- C136 fails: a group with a field of a channel's name is accepted, and from then on `set` writes the field, while
`field_or_channel` still gives the channel, whose value stays what it was. -/
theorem C136_field_hides_fails (e : Env) (name : String) (c : Nat) (hc : dget e.chans name = some c) (fs : List Field)
    (f : Field) (hf : f ∈ fs) (hn : f.name = name) (hd : ∀ g ∈ fs, g.name = name → g = f) (hne : f.obj ≠ c) (v : Int) :
    (e.add fs).fieldOrChannel name = some c ∧ (e.add fs).set name v = .ok ((e.add fs).write f.obj v) ∧
    ((e.add fs).write f.obj v).store c = e.store c := by
  have hk := enter_keep e.groups.length fs { e with groups := e.groups ++ [fs] }
  have hl : dget (e.add fs).lookup name = some e.groups.length := by
    rw [Env.add, enter_lookup, if_pos (List.mem_map.2 ⟨f, hf, hn⟩)]
  have hfind : fs.find? (fun g => g.name = name) = some f := by
    have : (fs.find? fun g => g.name = name).isSome := by
      rw [List.find?_isSome]
      exact ⟨f, hf, by simpa using hn⟩
    obtain ⟨g, hg⟩ := Option.isSome_iff_exists.1 this
    rw [hg, hd g (List.mem_of_find?_eq_some hg) (by simpa using List.find?_some hg)]
  have hfield : (e.add fs).field name = some f := by
    have hg : (e.add fs).groups = e.groups ++ [fs] := hk.2.1
    simp [Env.field, hl, hg, hfind]
  refine ⟨?_, ?_, ?_⟩
  · have : (e.add fs).chans = e.chans := hk.1
    rw [Env.fieldOrChannel, this, hc]
  · rw [Env.set, if_pos (by rw [Env.hasField, hl]; rfl), hfield]
  · have : (e.add fs).store = e.store := hk.2.2
    simp [Env.write, Ne.symm hne, this]

/-- C136 fails the other way round: a channel with a field's name is accepted; it is what `field_or_channel` gives, and
cannot be set by its name. -/
theorem C136_channel_hides_fails (e : Env) (name : String) (c : Nat) (f : Field) (hc : dget e.chans name = none)
    (hh : e.hasField name = true) (hf : e.field name = some f) (hne : f.obj ≠ c) (v : Int) :
    ∃ e', e.channel name c = .ok e' ∧ e'.fieldOrChannel name = some c ∧ e'.set name v = .ok (e'.write f.obj v) ∧
      (e'.write f.obj v).store c = e.store c := by
  refine ⟨_, channel_fresh e name c hc, ?_, ?_, ?_⟩
  · have : dget (e.chans ++ [(name, c)]) name = some c := by
      rw [← dset_fresh _ _ _ ((dget_none_iff e.chans name).1 hc)]
      exact dget_dset_self _ _ _
    simp only [Env.fieldOrChannel, this]
  · have h1 : ({ e with chans := e.chans ++ [(name, c)] } : Env).hasField name = true := hh
    have h2 : ({ e with chans := e.chans ++ [(name, c)] } : Env).field name = some f := hf
    rw [Env.set, if_pos h1]
    simp only [h2]
  · simp [Env.write, Ne.symm hne]

/-- C136: a second channel of a name is refused, and only that. -/
theorem C136_refused (e : Env) (name : String) (c : Nat) :
    (∃ e', e.channel name c = .ok e') ↔ dget e.chans name = none := by
  constructor
  · rintro ⟨e', h⟩
    rw [Env.channel] at h
    split at h
    · cases h
    · rename_i hn
      exact (dget_none_iff _ _).2 (Bool.eq_false_iff.2 hn)
  · exact fun h => ⟨_, channel_fresh e name c h⟩

/-- C136 fails for two fields of one name, the second without enumeration: its texts are taken from the enumeration of the
first, not for a boolean or a number. -/
theorem C136_stale_fails (enumInt : Nat → String → Option Int) (toBool : String → Option Bool) (toInt : String → Option Int)
    (e : Env) (k : Nat) (f : Field) (hk : dget e.enums f.name = some k) (hf : f.enum = none) (t : String) :
    (e.add [f]).field f.name = some f ∧
    (e.add [f]).text enumInt toBool toInt f t = (match enumInt k t with | some v => .ok v | none => .error .key) := by
  constructor
  · have hl : dget (e.add [f]).lookup f.name = some e.groups.length := by
      rw [Env.add, enter_lookup, if_pos (by simp)]
    have hg : (e.add [f]).groups = e.groups ++ [[f]] := rfl
    simp [Env.field, hl, hg]
  · have : dget (e.add [f]).enums f.name = some k := by
      simp only [Env.add, List.foldl_cons, List.foldl_nil, Env.enter, hf]
      exact hk
    rw [Env.text, this]

theorem enter_enums (i : Nat) (fs : List Field) (e : Env) (n : String) (h : n ∉ fs.map (·.name)) :
    dget (fs.foldl (Env.enter i) e).enums n = dget e.enums n := by
  induction fs generalizing e with
  | nil => rfl
  | cons g gs ih =>
    simp only [List.map_cons, List.mem_cons, not_or] at h
    rw [List.foldl_cons, ih _ h.2]
    simp only [Env.enter]
    cases g.enum with
    | none => rfl
    | some k => exact dget_dset_ne _ _ _ _ (Ne.symm h.1)

/-- C136, for a field whose name is new: its texts are those of its own enumeration, or booleans and numbers. -/
theorem C136_text_partial (enumInt : Nat → String → Option Int) (toBool : String → Option Bool) (toInt : String → Option Int)
    (e : Env) (fs gs : List Field) (f : Field) (hnew : dget e.enums f.name = none)
    (hfs : f.name ∉ fs.map (·.name)) (hgs : f.name ∉ gs.map (·.name)) (t : String) :
    (e.add (fs ++ f :: gs)).text enumInt toBool toInt f t =
      match f.enum with
      | some k => (match enumInt k t with | some v => .ok v | none => .error .key)
      | none => match toBool t with
        | some b => .ok (if b then 1 else 0)
        | none => match toInt t with
          | some v => .ok v
          | none => .error .value := by
  have h : dget (e.add (fs ++ f :: gs)).enums f.name = f.enum := by
    rw [Env.add, List.foldl_append, List.foldl_cons, enter_enums _ gs _ _ hgs]
    have h1 := enter_enums e.groups.length fs { e with groups := e.groups ++ [fs ++ f :: gs] } f.name hfs
    generalize List.foldl (Env.enter e.groups.length) { e with groups := e.groups ++ [fs ++ f :: gs] } fs = q at h1 ⊢
    simp only [Env.enter]
    cases hf : f.enum with
    | none => exact h1.trans hnew
    | some k => exact dget_dset_self _ _ _
  rw [Env.text, h]

theorem add_field_other (e : Env) (h : e.Ok) (fs : List Field) (name : String) (hn : name ∉ fs.map (·.name)) :
    (e.add fs).field name = e.field name := by
  have hg : (e.add fs).groups = e.groups ++ [fs] := (enter_keep _ fs _).2.1
  have hl : dget (e.add fs).lookup name = dget e.lookup name := by
    rw [Env.add, enter_lookup, if_neg hn]
  rw [Env.field, Env.field, hl, hg]
  cases hi : dget e.lookup name with
  | none => rfl
  | some i =>
    obtain ⟨g, hg', _⟩ := h name i hi
    have hlt : i < e.groups.length := (List.getElem?_eq_some_iff.1 hg').1
    simp [List.getElem?_append_left hlt]

/-- The names an operation makes. -/
def Op.names : Op → List String
  | .channel n _ => [n]
  | .add fs => fs.map (·.name)

/-- C136: making channels and fields of other names, in any number and order, changes neither what a name stands for nor
what is read under it. -/
theorem C136_others (ops more : List Op) (name : String) (hn : ∀ o ∈ more, name ∉ o.names) :
    (Env.made (ops ++ more)).fieldOrChannel name = (Env.made ops).fieldOrChannel name ∧
    (Env.made (ops ++ more)).field name = (Env.made ops).field name ∧
    (Env.made (ops ++ more)).value name = (Env.made ops).value name := by
  have one : ∀ (e : Env) (o : Op), e.Ok → name ∉ o.names → (e.make o).Ok ∧
      dget (e.make o).chans name = dget e.chans name ∧ (e.make o).field name = e.field name ∧
      dget (e.make o).lookup name = dget e.lookup name ∧ (e.make o).store = e.store := by
    intro e o hok hno
    cases o with
    | channel n c =>
      have hne : n ≠ name := by
        intro h
        exact hno (by simp [Op.names, h])
      cases hc : dget e.chans n with
      | none =>
        have hmk : e.make (.channel n c) = { e with chans := e.chans ++ [(n, c)] } := by
          rw [Env.make, channel_fresh e n c hc]
        rw [hmk]
        refine ⟨hok, ?_, rfl, rfl, rfl⟩
        show dget (e.chans ++ [(n, c)]) name = _
        rw [← dset_fresh _ _ _ ((dget_none_iff e.chans n).1 hc)]
        exact dget_dset_ne _ _ _ _ hne
      | some x =>
        have : e.make (.channel n c) = e := by
          have hr := C136_refused e n c
          simp only [Env.make]
          cases hh : e.channel n c with
          | error _ => rfl
          | ok e' =>
            have := hr.1 ⟨e', hh⟩
            rw [hc] at this
            cases this
        rw [this]
        exact ⟨hok, rfl, rfl, rfl, rfl⟩
    | add fs =>
      have hk := enter_keep e.groups.length fs { e with groups := e.groups ++ [fs] }
      refine ⟨add_ok e hok fs, ?_, add_field_other e hok fs name hno, ?_, hk.2.2⟩
      · exact congrArg (dget · name) hk.1
      · simp only [Env.make, Env.add]
        rw [enter_lookup, if_neg (show name ∉ fs.map (·.name) from hno)]
  have all : ∀ (more : List Op) (e : Env), e.Ok → (∀ o ∈ more, name ∉ o.names) →
      dget (more.foldl Env.make e).chans name = dget e.chans name ∧ (more.foldl Env.make e).field name = e.field name ∧
      dget (more.foldl Env.make e).lookup name = dget e.lookup name ∧ (more.foldl Env.make e).store = e.store := by
    intro more
    induction more with
    | nil => exact fun e _ _ => ⟨rfl, rfl, rfl, rfl⟩
    | cons o os ih =>
      intro e hok hno
      obtain ⟨k0, k1, k2, k3, k4⟩ := one e o hok (hno o List.mem_cons_self)
      obtain ⟨j1, j2, j3, j4⟩ := ih (e.make o) k0 fun x hx => hno x (List.mem_cons_of_mem _ hx)
      exact ⟨j1.trans k1, j2.trans k2, j3.trans k3, j4.trans k4⟩
  obtain ⟨h1, h2, h3, h4⟩ := all more (Env.made ops) (made_ok ops) hn
  have hm : Env.made (ops ++ more) = more.foldl Env.make (Env.made ops) := by
    simp [Env.made, List.foldl_append]
  rw [hm]
  refine ⟨?_, h2, ?_⟩
  · rw [Env.fieldOrChannel, Env.fieldOrChannel, h1, h2]
  · rw [Env.value, Env.value, Env.hasField, Env.hasField, h1, h2, h3, h4]

/-! ### Examples -/

def exField : Field := ⟨"x", 1, none⟩

/-- Channel `x` (object 0), then a group with the fields `x` (object 1) and `y` (object 2). -/
def exEnv : Env := Env.made [.channel "x" 0, .channel "z" 3, .add [exField, ⟨"y", 2, some 0⟩]]

/-- `C136_others` for `z` and the group with `x` and `y`; `x` itself is changed by that group. -/
example : exEnv.fieldOrChannel "z" = (Env.made [.channel "x" 0, .channel "z" 3]).fieldOrChannel "z" :=
  (C136_others [.channel "x" 0, .channel "z" 3] [.add [exField, ⟨"y", 2, some 0⟩]] "z"
    (by simp [Op.names, exField])).1

theorem C136_cases :
    (exEnv.set "x" 5).map (fun e => (e.store 0, e.store 1)) = .ok (0, 5) ∧ exEnv.fieldOrChannel "x" = some 0 ∧
    exEnv.fieldOrChannel "y" = some 2 ∧ (exEnv.set "y" 1).map (fun e => e.store 2) = .ok 1 ∧
    (exEnv.set "z" 7).map (fun e => (e.store 3, e.value "z")) = .ok (7, .ok 7) ∧
    (exEnv.set "w" 7).map (fun e => e.store 0) = .error .key ∧
    (exEnv.channel "y" 4).map (fun e => e.fieldOrChannel "y") = .ok (some 4) ∧
    (exEnv.channel "z" 4).map (fun e => e.store 0) = .error .assertion := by
  decide +kernel

end Verif.Shared
