import Verif.Dict
import Verif.Base
/-!
C134: Python enumerations as runtime enumerations: `enum/registry.py` 52–65 (`RuntimeIntEnum.normalize`), 81–94
(`register_enum`), `enum/__init__.py` 166–181 (`data_from_enum`, `from_enum`), with `int_from_dict` and `_set` of
`mapping.py` 62–83 and 122–141 and the look-ups of `enum/__init__.py` 91–142.

Names are lists of code points, `upper` and `lower` those of ASCII. A class is the list of its definitions with distinct
names; a definition with the value of an earlier one is an alias (CPython's `enum`): iteration skips it, look-up by name
gives the first member. Registering in the registry itself is C17 and C18, names that are refused C120.
-/
namespace Verif.PyEnum
open Verif

abbrev Name := List Nat

def up (c : Nat) : Nat := if 97 ≤ c ∧ c ≤ 122 then c - 32 else c
def low (c : Nat) : Nat := if 65 ≤ c ∧ c ≤ 90 then c + 32 else c
def upper (n : Name) : Name := n.map up
def lower (n : Name) : Name := n.map low

/-- The definitions of an `IntEnum`, in order. -/
abbrev Cls := List (Name × Int)

/-- Iterating over a class: its members without aliases. -/
def members (seen : List Int) : Cls → Cls
  | [] => []
  | d :: ds => if d.2 ∈ seen then members seen ds else d :: members (seen ++ [d.2]) ds

/-- `cls(value)`. -/
def byValue (c : Cls) (v : Int) : Except PyErr (Name × Int) :=
  match c.find? (fun d => d.2 = v) with
  | some d => .ok d
  | none => .error .value

/-- `cls[name]`. -/
def byName (c : Cls) (n : Name) : Except PyErr (Name × Int) :=
  match c.find? (fun d => d.1 = n) with
  | some d => byValue c d.2
  | none => .error .key

/-- `normalize`, enum/registry.py 52–65, of an integer and of a text. -/
def normInt (c : Cls) (v : Int) : Except PyErr (Name × Int) := byValue c v
def normStr (c : Cls) (n : Name) : Except PyErr (Name × Int) := byName c (upper n)

/-- `data_from_enum`, enum/__init__.py 166–173: the items, a dictionary. -/
def items (c : Cls) : List (Name × Int) := (members [] c).foldl (fun d m => dset d (lower m.1) m.2) []

/-- The two dictionaries of a mapping. -/
structure Maps where
  names : List (Int × Name)
  values : List (Name × Int)
deriving DecidableEq, Repr

/-- `TwoWayNameMapping._set`, mapping.py 62–83. -/
def Maps.set (m : Maps) (p : Name × Int) : Except PyErr Maps := do
  let names ← match dget m.names p.2 with
    | none => .ok (dset m.names p.2 p.1)
    | some n => if n = p.1 then .ok m.names else .error .assertion
  let values ← match dget m.values p.1 with
    | none => .ok (dset m.values p.1 p.2)
    | some v => if v = p.2 then .ok m.values else .error .assertion
  return ⟨names, values⟩

/-- The runtime enumeration of a class, `from_enum` and `register_enum`. -/
def fromEnum (c : Cls) : Except PyErr Maps := (items c).foldlM Maps.set ⟨[], []⟩

/-- `get_int` of a text that is no number and `get_str` of an integer, enum/__init__.py 101–142. -/
def getInt (m : Maps) (n : Name) : Except PyErr Int :=
  match dget m.values n with
  | some v => .ok v
  | none => .error .key

def getStr (m : Maps) (v : Int) : Except PyErr Name :=
  match dget m.names v with
  | some n => .ok n
  | none => .error .key

/-! ### Claims -/

theorem up_low (c : Nat) : up (low c) = up c := by
  unfold up low
  repeat' split
  all_goals omega

theorem up_up (c : Nat) : up (up c) = up c := by
  unfold up
  repeat' split
  all_goals omega

theorem upper_lower (n : Name) : upper (lower n) = upper n := by
  simp [upper, lower, Function.comp_def, up_low]

/-- C134: names of a runtime enumeration have no capital, and are the same name but for the case. -/
theorem C134_lower (n : Name) : (∀ x ∈ lower n, ¬ (65 ≤ x ∧ x ≤ 90)) ∧ upper (lower n) = upper n ∧ (lower n).length = n.length := by
  refine ⟨fun x hx => ?_, upper_lower n, by simp [lower]⟩
  obtain ⟨c, _, rfl⟩ := List.mem_map.1 hx
  unfold low
  split <;> omega

theorem members_sub (c : Cls) : ∀ seen, ∀ d ∈ members seen c, d ∈ c ∧ d.2 ∉ seen := by
  induction c with
  | nil => simp [members]
  | cons x xs ih =>
    intro seen d hd
    rw [members] at hd
    split at hd
    · exact ⟨by simp [(ih _ _ hd).1], (ih _ _ hd).2⟩
    · rename_i hx
      rcases List.mem_cons.1 hd with rfl | hd
      · exact ⟨by simp, hx⟩
      · have := ih _ _ hd
        simp only [List.mem_append, List.mem_singleton, not_or] at this
        exact ⟨by simp [this.1], this.2.1⟩

theorem members_values (c : Cls) : ∀ seen, ((members seen c).map (·.2)).Nodup := by
  induction c with
  | nil => simp [members]
  | cons x xs ih =>
    intro seen
    rw [members]
    split
    · exact ih _
    · rw [List.map_cons, List.nodup_cons]
      refine ⟨fun h => ?_, ih _⟩
      obtain ⟨d, hd, e⟩ := List.mem_map.1 h
      have := (members_sub xs _ d hd).2
      simp only [List.mem_append, List.mem_singleton, not_or] at this
      exact this.2 e

/-- Being a member: no earlier definition has the value. -/
theorem members_find (c : Cls) : ∀ seen v, v ∉ seen → (members seen c).find? (fun d => d.2 = v) = c.find? (fun d => d.2 = v) := by
  induction c with
  | nil => simp [members]
  | cons x xs ih =>
    intro seen v hv
    rw [members]
    split
    · rename_i hx
      have : x.2 ≠ v := by rintro rfl; exact hv hx
      rw [List.find?_cons_of_neg (by simpa using this)]
      exact ih _ _ hv
    · by_cases hx : x.2 = v
      · rw [List.find?_cons_of_pos (by simpa using hx), List.find?_cons_of_pos (by simpa using hx)]
      · rw [List.find?_cons_of_neg (by simpa using hx), List.find?_cons_of_neg (by simpa using hx)]
        exact ih _ _ (by simp [hv, Ne.symm hx])

theorem find_nodup {l : List (Name × Int)} (hn : (l.map (·.2)).Nodup) {d : Name × Int} (hd : d ∈ l) :
    l.find? (fun x => x.2 = d.2) = some d := by
  induction l with
  | nil => simp at hd
  | cons x xs ih =>
    obtain ⟨hx, hn⟩ := List.nodup_cons.1 hn
    rcases List.mem_cons.1 hd with e | hd'
    · rw [e, List.find?_cons_of_pos (by simp)]
    · have : x.2 ≠ d.2 := fun e => hx (List.mem_map.2 ⟨d, hd', e.symm⟩)
      rw [List.find?_cons_of_neg (by simpa using this)]
      exact ih hn hd'

theorem find_name {l : List (Name × Int)} (hn : (l.map (·.1)).Nodup) {d : Name × Int} (hd : d ∈ l) :
    l.find? (fun x => x.1 = d.1) = some d := by
  induction l with
  | nil => simp at hd
  | cons x xs ih =>
    obtain ⟨hx, hn⟩ := List.nodup_cons.1 hn
    rcases List.mem_cons.1 hd with e | hd'
    · rw [e, List.find?_cons_of_pos (by simp)]
    · have : x.1 ≠ d.1 := fun e => hx (List.mem_map.2 ⟨d, hd', e.symm⟩)
      rw [List.find?_cons_of_neg (by simpa using this)]
      exact ih hn hd'

/-- C134: a value stands for the member with it. -/
theorem C134_value (c : Cls) (d : Name × Int) (hd : d ∈ members [] c) : normInt c d.2 = .ok d := by
  have := members_find c [] d.2 (by simp)
  rw [normInt, byValue, ← this, find_nodup (members_values c []) hd]

/-- C134: a name, in whatever case it is written, stands for its member, if the class has its names in upper case; the name
of an alias for the member it is an alias of. -/
theorem C134_name (c : Cls) (hn : (c.map (·.1)).Nodup) (d m : Name × Int) (hd : d ∈ c) (hm : m ∈ members [] c)
    (he : d.2 = m.2) (text : Name) (ht : upper text = d.1) : normStr c text = .ok m := by
  rw [normStr, byName, ht, find_name hn hd]
  show byValue c d.2 = _
  rw [he]
  exact C134_value c m hm

theorem dget_none_of {α β : Type} [DecidableEq α] (l : List (α × β)) (k : α) (h : k ∉ l.map (·.1)) : dget l k = none := by
  rw [dget_none_iff, Bool.eq_false_iff]
  intro hh
  obtain ⟨y, hy, e⟩ := List.any_eq_true.1 hh
  exact h (List.mem_map.2 ⟨y, hy, by simpa using e⟩)

theorem foldl_dset_fresh (ds : List (Name × Int)) (acc : List (Name × Int))
    (h : ((acc.map (·.1)) ++ ds.map fun m => lower m.1).Nodup) :
    ds.foldl (fun d m => dset d (lower m.1) m.2) acc = acc ++ ds.map fun m => (lower m.1, m.2) := by
  induction ds generalizing acc with
  | nil => simp
  | cons x xs ih =>
    have hx : lower x.1 ∉ acc.map (·.1) := by
      intro hm
      have := (List.nodup_append.1 h).2.2 _ hm (lower x.1) (by simp)
      exact this rfl
    have hf := (dget_none_iff acc (lower x.1)).1 (dget_none_of acc (lower x.1) hx)
    rw [List.foldl_cons, dset_fresh _ _ _ hf, ih]
    · simp
    · simpa [List.append_assoc] using h

/-- C134: a pair is accepted exactly if neither its value nor its name stands for something else, and then each stands for
the other. -/
theorem C134_set (m : Maps) (p : Name × Int) :
    ((∃ r, m.set p = .ok r) ↔ (∀ n, dget m.names p.2 = some n → n = p.1) ∧ (∀ v, dget m.values p.1 = some v → v = p.2)) ∧
    ∀ r, m.set p = .ok r → dget r.names p.2 = some p.1 ∧ dget r.values p.1 = some p.2 ∧
      (∀ v, v ≠ p.2 → dget r.names v = dget m.names v) ∧ ∀ n, n ≠ p.1 → dget r.values n = dget m.values n := by
  unfold Maps.set
  simp only [bind, Except.bind, pure, Except.pure]
  cases h1 : dget m.names p.2 with
  | none =>
    cases h2 : dget m.values p.1 with
    | none =>
      refine ⟨by simp, ?_⟩
      rintro r hr
      cases hr
      exact ⟨dget_dset_self _ _ _, dget_dset_self _ _ _, fun v hv => dget_dset_ne _ _ _ _ (Ne.symm hv),
        fun n hn => dget_dset_ne _ _ _ _ (Ne.symm hn)⟩
    | some v =>
      by_cases hv : v = p.2
      · simp only [if_pos hv]
        refine ⟨by simp [hv], ?_⟩
        rintro r hr
        cases hr
        exact ⟨dget_dset_self _ _ _, hv ▸ h2, fun v hv => dget_dset_ne _ _ _ _ (Ne.symm hv), fun _ _ => rfl⟩
      · simp [hv]
  | some n =>
    by_cases hn : n = p.1
    · simp only [if_pos hn]
      cases h2 : dget m.values p.1 with
      | none =>
        refine ⟨by simp [hn], ?_⟩
        rintro r hr
        cases hr
        exact ⟨hn ▸ h1, dget_dset_self _ _ _, fun _ _ => rfl, fun n hn => dget_dset_ne _ _ _ _ (Ne.symm hn)⟩
      | some v =>
        by_cases hv : v = p.2
        · simp only [if_pos hv]
          refine ⟨by simp [hn, hv], ?_⟩
          rintro r hr
          cases hr
          exact ⟨hn ▸ h1, hv ▸ h2, fun _ _ => rfl, fun _ _ => rfl⟩
        · simp [hv]
    · simp [hn]

theorem load_fresh (ds : List (Name × Int)) (m : Maps) (hv : (m.names.map (·.1) ++ ds.map (·.2)).Nodup)
    (hn : (m.values.map (·.1) ++ ds.map (·.1)).Nodup) :
    ds.foldlM Maps.set m = .ok ⟨m.names ++ ds.map fun d => (d.2, d.1), m.values ++ ds⟩ := by
  induction ds generalizing m with
  | nil => simp [List.foldlM, pure, Except.pure]
  | cons x xs ih =>
    have h1 : dget m.names x.2 = none := dget_none_of _ _ fun hm =>
      (List.nodup_append.1 hv).2.2 _ hm x.2 (by simp) rfl
    have h2 : dget m.values x.1 = none := dget_none_of _ _ fun hm =>
      (List.nodup_append.1 hn).2.2 _ hm x.1 (by simp) rfl
    have hs : m.set x = .ok ⟨m.names ++ [(x.2, x.1)], m.values ++ [x]⟩ := by
      simp only [Maps.set, h1, h2, dset_fresh _ _ _ ((dget_none_iff _ _).1 h1), dset_fresh _ _ _ ((dget_none_iff _ _).1 h2)]
      rfl
    rw [List.foldlM_cons, hs]
    show List.foldlM Maps.set _ xs = _
    rw [ih]
    · simp [List.append_assoc]
    · simpa [List.append_assoc] using hv
    · simpa [List.append_assoc] using hn

/-- The names of the members are different also without case. -/
def Apart (c : Cls) : Prop := ((members [] c).map fun m => lower m.1).Nodup

/-- C134: the runtime enumeration of a class has its members, in order, under their names in lower case; nothing raises. -/
theorem C134_items (c : Cls) (h : Apart c) :
    fromEnum c = .ok ⟨(members [] c).map fun m => (m.2, lower m.1), (members [] c).map fun m => (lower m.1, m.2)⟩ := by
  have hi : items c = (members [] c).map fun m => (lower m.1, m.2) := by
    have := foldl_dset_fresh (members [] c) [] (by simpa [Apart] using h)
    simpa [items] using this
  rw [fromEnum, hi, load_fresh]
  · simp [Function.comp_def]
  · simpa [Function.comp_def] using members_values c []
  · simpa [Function.comp_def, Apart] using h

theorem dget_map_fst {α β γ : Type} [DecidableEq α] (l : List γ) (f : γ → α) (g : γ → β) (hn : (l.map f).Nodup) (d : γ)
    (hd : d ∈ l) : dget (l.map fun m => (f m, g m)) (f d) = some (g d) := by
  induction l with
  | nil => simp at hd
  | cons x xs ih =>
    obtain ⟨hx, hn⟩ := List.nodup_cons.1 hn
    rw [List.map_cons, dget_cons]
    rcases List.mem_cons.1 hd with e | hd'
    · simp [e]
    · have : f x ≠ f d := fun e => hx (List.mem_map.2 ⟨d, hd', e.symm⟩)
      simp only [if_neg this, ih hn hd']

/-- C134: a member goes to its runtime enumeration and back: its name there gives its value, its value its name there, and
both give the member again. -/
theorem C134_roundtrip (c : Cls) (hn : (c.map (·.1)).Nodup) (h : Apart c) (d : Name × Int) (hd : d ∈ members [] c) :
    ∃ m, fromEnum c = .ok m ∧ getInt m (lower d.1) = .ok d.2 ∧ getStr m d.2 = .ok (lower d.1) ∧
      normInt c d.2 = .ok d ∧ (upper d.1 = d.1 → normStr c (lower d.1) = .ok d) := by
  refine ⟨_, C134_items c h, ?_, ?_, C134_value c d hd, fun hu => ?_⟩
  · rw [getInt, dget_map_fst (members [] c) (fun m => lower m.1) (fun m => m.2) h d hd]
  · rw [getStr, dget_map_fst (members [] c) (fun m => m.2) (fun m => lower m.1) (members_values c []) d hd]
  · exact C134_name c hn d d (members_sub c [] d hd).1 hd rfl _ (by rw [upper_lower, hu])

/-- Names in upper case are apart. -/
theorem C134_apart (c : Cls) (hn : (c.map (·.1)).Nodup) (hu : ∀ d ∈ c, upper d.1 = d.1) : Apart c := by
  have key : ∀ l : Cls, (l.map (·.1)).Nodup → (∀ d ∈ l, upper d.1 = d.1) → (l.map fun m => lower m.1).Nodup := by
    intro l
    induction l with
    | nil => simp
    | cons x xs ih =>
      intro h1 h2
      obtain ⟨hx, h1⟩ := List.nodup_cons.1 h1
      rw [List.map_cons, List.nodup_cons]
      refine ⟨fun hm => ?_, ih h1 fun d hd => h2 d (by simp [hd])⟩
      obtain ⟨y, hy, e⟩ := List.mem_map.1 hm
      have e' := congrArg upper e
      rw [upper_lower, upper_lower, h2 y (by simp [hy]), h2 x (by simp)] at e'
      exact hx (List.mem_map.2 ⟨y, hy, e'⟩)
  have sub : ∀ l : Cls, ∀ seen, (l.map (·.1)).Nodup → ((members seen l).map (·.1)).Nodup := by
    intro l
    induction l with
    | nil => simp [members]
    | cons x xs ih =>
      intro seen h
      obtain ⟨hx, h⟩ := List.nodup_cons.1 h
      rw [members]
      split
      · exact ih _ h
      · rw [List.map_cons, List.nodup_cons]
        refine ⟨fun hm => ?_, ih _ h⟩
        obtain ⟨y, hy, e⟩ := List.mem_map.1 hm
        exact hx (List.mem_map.2 ⟨y, (members_sub xs _ y hy).1, e⟩)
  exact key _ (sub c [] hn) fun d hd => hu d (members_sub c [] d hd).1

/-- C134: what is no name and no value of the class raises. -/
theorem C134_unknown (c : Cls) (text : Name) (v : Int) :
    ((∀ d ∈ c, d.1 ≠ upper text) → normStr c text = .error .key) ∧ ((∀ d ∈ c, d.2 ≠ v) → normInt c v = .error .value) := by
  constructor
  · intro h
    rw [normStr, byName, List.find?_eq_none.2 (by simpa using h)]
  · intro h
    rw [normInt, byValue, List.find?_eq_none.2 (by simpa using h)]

/-- C134 fails for a member with a small letter in its name: `normalize` does not know its name, in any case. -/
theorem C134_small_fails (c : Cls) (d : Name × Int) (hd : upper d.1 ≠ d.1) (ho : ∀ x ∈ c, x ≠ d → upper x.1 ≠ upper d.1)
    (text : Name) (ht : upper text = upper d.1) : normStr c text = .error .key := by
  refine (C134_unknown c text 0).1 fun x hx => ?_
  rw [ht]
  by_cases e : x = d
  · rw [e]; exact fun k => hd k.symm
  · intro k
    refine ho x hx e ?_
    rw [k]
    simp [upper, Function.comp_def, up_up]

/-- C134 fails for an alias: `normalize` knows its name, the runtime enumeration does not. -/
theorem C134_alias_fails (c : Cls) (hn : (c.map (·.1)).Nodup) (hu : ∀ d ∈ c, upper d.1 = d.1) (d m : Name × Int)
    (hd : d ∈ c) (hm : m ∈ members [] c) (he : d.2 = m.2) (hne : d ≠ m) :
    ∃ r, fromEnum c = .ok r ∧ normStr c (lower d.1) = .ok m ∧ getInt r (lower d.1) = .error .key := by
  refine ⟨_, C134_items c (C134_apart c hn hu), ?_, ?_⟩
  · exact C134_name c hn d m hd hm he _ (by rw [upper_lower, hu d hd])
  · have : dget ((members [] c).map fun m => (lower m.1, m.2)) (lower d.1) = none := by
      refine dget_none_of _ _ fun h => ?_
      simp only [List.map_map, List.mem_map, Function.comp] at h
      obtain ⟨y, hy, e⟩ := h
      have e' := congrArg upper e
      have hyc := (members_sub c [] y hy).1
      rw [upper_lower, upper_lower, hu y hyc, hu d hd] at e'
      have hyd : y = d := by
        have h1 := find_name hn hyc
        have h2 := find_name hn hd
        rw [e'] at h1
        exact Option.some.inj (h1.symm.trans h2)
      subst hyd
      have h1 := find_nodup (members_values c []) hy
      have h2 := find_nodup (members_values c []) hm
      rw [he] at h1
      exact hne (Option.some.inj (h1.symm.trans h2))
    rw [getInt]
    simp only [this]

theorem mem_dset {d : List (Name × Int)} {k : Name} {v : Int} {p : Name × Int} (h : p ∈ dset d k v) :
    p = (k, v) ∨ p ∈ d ∧ p.1 ≠ k := by
  unfold dset at h
  split at h
  · obtain ⟨q, hq, e⟩ := List.mem_map.1 h
    split at e
    · exact .inl e.symm
    · rename_i hk
      subst e
      exact .inr ⟨hq, hk⟩
  · rename_i hk
    rcases List.mem_append.1 h with h | h
    · refine .inr ⟨h, fun e => hk (List.any_eq_true.2 ⟨p, h, by simpa using e⟩)⟩
    · exact .inl (by simpa using h)

theorem fold_value (ds : List (Name × Int)) (acc : List (Name × Int)) (p : Name × Int)
    (h : p ∈ ds.foldl (fun d m => dset d (lower m.1) m.2) acc) :
    (p ∈ acc ∧ ∀ m ∈ ds, lower m.1 ≠ p.1) ∨ ∃ m ∈ ds, p = (lower m.1, m.2) := by
  induction ds generalizing acc with
  | nil => exact .inl ⟨h, by simp⟩
  | cons x xs ih =>
    rcases ih _ h with ⟨h, hx⟩ | ⟨m, hm, e⟩
    · rcases mem_dset h with e | ⟨h, hk⟩
      · exact .inr ⟨x, by simp, e⟩
      · refine .inl ⟨h, fun m hm => ?_⟩
        rcases List.mem_cons.1 hm with rfl | hm
        · exact Ne.symm hk
        · exact hx m hm
    · exact .inr ⟨m, by simp [hm], e⟩

theorem load_names (ds : List (Name × Int)) (m r : Maps) (h : ds.foldlM Maps.set m = .ok r) (p : Int × Name)
    (hp : p ∈ r.names) : p ∈ m.names ∨ ∃ d ∈ ds, d.2 = p.1 := by
  induction ds generalizing m with
  | nil =>
    simp only [List.foldlM, pure, Except.pure, Except.ok.injEq] at h
    subst h
    exact .inl hp
  | cons x xs ih =>
    rw [List.foldlM_cons] at h
    cases hs : m.set x with
    | error e => rw [hs] at h; cases h
    | ok q =>
      rw [hs] at h
      rcases ih q h with hq | ⟨d, hd, e⟩
      · have : p ∈ m.names ∨ x.2 = p.1 := by
          have hn : q.names = m.names ∨ dget m.names x.2 = none ∧ q.names = dset m.names x.2 x.1 := by
            simp only [Maps.set, bind, Except.bind, pure, Except.pure] at hs
            repeat' split at hs
            all_goals first | cases hs | skip
            all_goals simp_all
          rcases hn with hn | ⟨h0, hn⟩
          · exact .inl (hn ▸ hq)
          · rw [hn, dset_fresh _ _ _ ((dget_none_iff _ _).1 h0)] at hq
            rcases List.mem_append.1 hq with hq | hq
            · exact .inl hq
            · exact .inr (by simp at hq; rw [hq])
        rcases this with h | h
        · exact .inl h
        · exact .inr ⟨x, by simp, h⟩
      · exact .inr ⟨d, by simp [hd], e⟩

/-- C134 fails for two members whose names differ in case only: the first one is not in the runtime enumeration. -/
theorem C134_case_fails (c front mid back : Cls) (a b : Name × Int) (hc : members [] c = front ++ a :: (mid ++ b :: back))
    (he : lower a.1 = lower b.1) (r : Maps) (hr : fromEnum c = .ok r) : getStr r a.2 = .error .key := by
  have hv := members_values c []
  rw [hc] at hv
  simp only [List.map_append, List.map_cons] at hv
  obtain ⟨-, hv2, hv3⟩ := List.nodup_append.1 hv
  obtain ⟨ha, hv2⟩ := List.nodup_cons.1 hv2
  have hni : ∀ p ∈ items c, p.2 ≠ a.2 := by
    intro p hp e
    rw [items, hc, List.foldl_append, List.foldl_cons] at hp
    rcases fold_value _ _ p hp with ⟨hp, hk⟩ | ⟨m, hm, rfl⟩
    · have hkb := hk b (by simp)
      rcases mem_dset hp with rfl | ⟨hp, _⟩
      · exact hkb he.symm
      · rcases fold_value _ _ p hp with ⟨hp, _⟩ | ⟨m, hm, rfl⟩
        · simp at hp
        · exact hv3 m.2 (List.mem_map.2 ⟨m, hm, rfl⟩) a.2 (by simp) e
    · refine ha ?_
      rw [← e]
      have : m.2 ∈ (mid ++ b :: back).map (·.2) := List.mem_map.2 ⟨m, hm, rfl⟩
      simpa using this
  have : dget r.names a.2 = none := by
    refine dget_none_of _ _ fun h => ?_
    obtain ⟨p, hp, e⟩ := List.mem_map.1 h
    rcases load_names _ _ _ hr p hp with h | ⟨d, hd, e'⟩
    · simp at h
    · exact hni d hd (e'.trans e)
  rw [getStr]
  simp only [this]

/-! ### Examples -/

def str (s : String) : Name := s.toList.map Char.toNat

/-- `LogLevel`, mixins/logging.py 21–28. -/
def logLevel : Cls := [(str "DEBUG", 10), (str "INFO", 20), (str "WARNING", 30), (str "ERROR", 40), (str "CRITICAL", 50)]

theorem C134_cases :
    normStr logLevel (str "Info") = .ok (str "INFO", 20) ∧ normStr logLevel (str "warn") = .error .key ∧
    normInt logLevel 0 = .error .value ∧
    (fromEnum logLevel).map (fun m => (getStr m 30, getInt m (str "error"))) = .ok (.ok (str "warning"), .ok 40) ∧
    -- an alias
    normStr (logLevel ++ [(str "WARN", 30)]) (str "warn") = .ok (str "WARNING", 30) ∧
    (fromEnum (logLevel ++ [(str "WARN", 30)])).map (fun m => getInt m (str "warn")) = .ok (.error .key) ∧
    -- names that differ in case only: a member is lost
    (fromEnum [(str "A", 1), (str "a", 2)]).map (fun m => (getStr m 1, getStr m 2)) = .ok (.error .key, .ok (str "a")) ∧
    -- a name in small letters
    normStr [(str "A", 1), (str "b", 2)] (str "b") = .error .key := by
  decide +kernel

theorem C134_log : Apart logLevel ∧ (logLevel.map (·.1)).Nodup ∧
    (fromEnum logLevel).map (·.values) =
      .ok [(str "debug", 10), (str "info", 20), (str "warning", 30), (str "error", 40), (str "critical", 50)] := by
  unfold Apart
  decide +kernel

end Verif.PyEnum
