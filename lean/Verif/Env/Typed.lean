import Verif.Dict
import Verif.Env.Defaults
/-!
C129: channels by their Python type: `channel`, `int_channel`, `bool_channel`, `float_channel`
(`channel/environment/create.py` 35–163), the sets `bools`, `ints`, `floats` and the enumerations of channels
(`channel/environment/base.py` 81–104), `get`, `get_int`, `get_bool`, `get_float`, `add_int` (base.py 230–268, 404–410).

Names are valid and have their namespace applied; a channel is named by its identifier, which is new for every channel
(C17); defaults are left out (C127). The sets hold identifiers, which is what C128 says they amount to.
-/
namespace Verif.Typed
open Verif Verif.Defaults

/-- `is_boolean`, `is_integer`, `is_float`, primitives/types/base.py 90–102. -/
inductive Cls
  | bool | int | float
  deriving DecidableEq, Repr

def cls : Ty → Cls
  | .bool => .bool
  | .int _ => .int
  | .float | .double => .float

/-- A channel: its identifier and the type of its primitive. -/
structure Ch where
  id : Nat
  ty : Ty
  deriving DecidableEq, Repr

/-- An environment: `channels.items`, the next identifier, the enumerations by key, `channel_enums`, the sets. -/
structure Env where
  items : List (String × Ch)
  next : Nat
  enums : List (String × Nat)
  chanEnums : List (Nat × Nat)
  bools : List Nat
  ints : List Nat
  floats : List Nat
  finalized : Bool
  deriving DecidableEq, Repr

def Env.new (enums : List (String × Nat)) : Env := ⟨[], 1, enums, [], [], [], [], false⟩

def Env.set (e : Env) : Cls → List Nat
  | .bool => e.bools
  | .int => e.ints
  | .float => e.floats

/-- `self.ints.add(…)` and so on. -/
def Env.add (e : Env) (c : Cls) (i : Nat) : Env :=
  match c with
  | .bool => { e with bools := i :: e.bools }
  | .int => { e with ints := i :: e.ints }
  | .float => { e with floats := i :: e.floats }

/-- `channel`, create.py 35–79. The channel is registered before the enumeration is looked up. -/
def Env.channel (e : Env) (name : String) (ty : Ty) (enum : Option String) : Env × Except PyErr Ch :=
  if e.finalized then (e, .error .assertion)
  else match dget e.items name with
    | some _ => (e, .error .assertion)
    | none =>
      let ch : Ch := ⟨e.next, ty⟩
      let e := { e with items := dset e.items name ch, next := e.next + 1 }
      match enum with
      | none => (e, .ok ch)
      | some k =>
        match dget e.enums k with
        | none => (e, .error .key)
        | some n => ({ e with chanEnums := dset e.chanEnums ch.id n }, .ok ch)

/-- `int_channel`, `bool_channel`, `float_channel`, create.py 81–163: the type is asserted after the creation. -/
def Env.typed (e : Env) (c : Cls) (name : String) (ty : Ty) (enum : Option String) : Env × Except PyErr Ch :=
  match e.channel name ty enum with
  | (e, .error x) => (e, .error x)
  | (e, .ok ch) => if cls ch.ty = c then (e.add c ch.id, .ok ch) else (e, .error .assertion)

/-- `get` and `__getitem__`, base.py 230–249. -/
def Env.get (e : Env) (name : String) : Except PyErr (Ch × Option Nat) :=
  match dget e.items name with
  | none => .error .key
  | some ch => .ok (ch, dget e.chanEnums ch.id)

/-- `get_int`, `get_bool`, `get_float`, base.py 251–279, 404–410. -/
def Env.getAs (e : Env) (c : Cls) (name : String) : Except PyErr Ch :=
  match e.get name with
  | .error x => .error x
  | .ok (ch, _) => if ch.id ∈ e.set c then .ok ch else .error .key

/-- The constructor given a registry of channels, base.py 81–104, as after a load: the sets are made from the types.
(The enumerations of the channels are taken to be the ones they have.) -/
def Env.reload (e : Env) : Env :=
  let of (c : Cls) := (e.items.filter fun p => cls p.2.ty = c).map fun p => p.2.id
  { e with bools := of .bool, ints := of .int, floats := of .float }

inductive Op
  | channel (name : String) (ty : Ty) (enum : Option String)
  | typed (c : Cls) (name : String) (ty : Ty) (enum : Option String)
  | finalize
  | reload
  deriving Repr

def step (e : Env) : Op → Env
  | .channel n t m => (e.channel n t m).1
  | .typed c n t m => (e.typed c n t m).1
  | .finalize => { e with finalized := true }
  | .reload => e.reload

def run (e : Env) (ops : List Op) : Env := ops.foldl step e

/-! ### The invariant -/

structure Inv (e : Env) : Prop where
  old : ∀ n ch, dget e.items n = some ch → ch.id < e.next
  one : ∀ n m a b, dget e.items n = some a → dget e.items m = some b → a.id = b.id → n = m
  keys : (e.items.map Prod.fst).Nodup
  sets : ∀ c i, i ∈ e.set c → ∃ n ch, dget e.items n = some ch ∧ ch.id = i ∧ cls ch.ty = c
  enumed : ∀ i, dget e.chanEnums i ≠ none → i < e.next

theorem inv_new (enums : List (String × Nat)) : Inv (Env.new enums) := by
  refine ⟨by simp [Env.new, dget_nil], by simp [Env.new, dget_nil], by simp [Env.new], ?_, by simp [Env.new, dget_nil]⟩
  intro c i h
  cases c <;> simp [Env.new, Env.set] at h

/-- The environment after the channel is registered. -/
def Env.plus (e : Env) (name : String) (ty : Ty) : Env :=
  { e with items := dset e.items name ⟨e.next, ty⟩, next := e.next + 1 }

theorem plus_set (e : Env) (name : String) (ty : Ty) (c : Cls) : (e.plus name ty).set c = e.set c := by
  cases c <;> rfl

theorem inv_plus {e : Env} (h : Inv e) (name : String) (ty : Ty) (hn : dget e.items name = none) :
    Inv (e.plus name ty) := by
  have g : ∀ n ch, dget (e.plus name ty).items n = some ch →
      (n = name ∧ ch = ⟨e.next, ty⟩) ∨ (n ≠ name ∧ dget e.items n = some ch) := by
    intro n ch hc
    simp only [Env.plus] at hc
    by_cases hx : n = name
    · subst hx; rw [dget_dset_self] at hc; cases hc; exact Or.inl ⟨rfl, rfl⟩
    · rw [dget_dset_ne _ _ _ _ (Ne.symm hx)] at hc; exact Or.inr ⟨hx, hc⟩
  refine ⟨?_, ?_, ?_, ?_, ?_⟩
  · intro n ch hc
    rcases g n ch hc with ⟨_, rfl⟩ | ⟨_, hc⟩
    · exact Nat.lt_succ_self _
    · exact Nat.lt_succ_of_lt (h.old n ch hc)
  · intro n m a b ha hb hab
    rcases g n a ha with ⟨rfl, rfl⟩ | ⟨_, ha'⟩ <;> rcases g m b hb with ⟨rfl, rfl⟩ | ⟨_, hb'⟩
    · rfl
    · exact absurd (h.old m b hb') (by rw [← hab]; exact Nat.lt_irrefl _)
    · exact absurd (h.old n a ha') (by rw [hab]; exact Nat.lt_irrefl _)
    · exact h.one n m a b ha' hb' hab
  · have hq := (dget_none_iff _ _).1 hn
    have hk : name ∉ e.items.map Prod.fst := by
      intro hm
      obtain ⟨p, hp, rfl⟩ := List.mem_map.1 hm
      rw [List.any_eq_false] at hq
      exact hq p hp (by simp)
    show ((dset e.items name ⟨e.next, ty⟩).map Prod.fst).Nodup
    rw [dset_fresh _ _ _ hq, List.map_append, List.nodup_append]
    refine ⟨h.keys, by simp, ?_⟩
    intro a ha b hb
    simp only [List.map_cons, List.map_nil, List.mem_singleton] at hb
    subst hb
    exact fun e => hk (e ▸ ha)
  · intro c i hi
    rw [plus_set] at hi
    obtain ⟨n, ch, h1, h2, h3⟩ := h.sets c i hi
    refine ⟨n, ch, ?_, h2, h3⟩
    simp only [Env.plus]
    rw [dget_dset_ne _ _ _ _ (by rintro rfl; rw [hn] at h1; cases h1)]
    exact h1
  · intro i hi
    exact Nat.lt_succ_of_lt (h.enumed i hi)

/-- What `channel` does. -/
theorem channel_cases (e : Env) (name : String) (ty : Ty) (enum : Option String) :
    ((e.finalized = true ∨ dget e.items name ≠ none) ∧ e.channel name ty enum = (e, .error .assertion)) ∨
    (e.finalized = false ∧ dget e.items name = none ∧
      ((enum = none ∧ e.channel name ty enum = (e.plus name ty, .ok ⟨e.next, ty⟩)) ∨
       (∃ k, enum = some k ∧ dget e.enums k = none ∧ e.channel name ty enum = (e.plus name ty, .error .key)) ∨
       (∃ k n, enum = some k ∧ dget e.enums k = some n ∧ e.channel name ty enum =
          ({ e.plus name ty with chanEnums := dset e.chanEnums e.next n }, .ok ⟨e.next, ty⟩)))) := by
  unfold Env.channel
  by_cases hf : e.finalized = true
  · simp [hf]
  · cases hn : dget e.items name with
    | some ch => simp [hf]
    | none =>
      right
      refine ⟨by simpa using hf, rfl, ?_⟩
      rw [if_neg hf]
      cases enum with
      | none => left; simp [Env.plus]
      | some k =>
        right
        simp only []
        cases hk : dget e.enums k with
        | none => left; exact ⟨k, rfl, hk, by simp [Env.plus]⟩
        | some n => right; exact ⟨k, n, rfl, hk, by simp [Env.plus]⟩

theorem inv_enumed {e : Env} (h : Inv e) (i n : Nat) (hi : i < e.next) :
    Inv { e with chanEnums := dset e.chanEnums i n } := by
  refine ⟨h.old, h.one, h.keys, fun c j hj => h.sets c j (by cases c <;> exact hj), fun j hj => ?_⟩
  by_cases hx : j = i
  · subst hx; exact hi
  · simp only [] at hj
    rw [dget_dset_ne _ _ _ _ (Ne.symm hx)] at hj
    exact h.enumed j hj

theorem inv_channel {e : Env} (h : Inv e) (name : String) (ty : Ty) (enum : Option String) :
    Inv (e.channel name ty enum).1 := by
  rcases channel_cases e name ty enum with ⟨_, k⟩ | ⟨_, hn, ⟨_, k⟩ | ⟨_, _, _, k⟩ | ⟨_, n, _, _, k⟩⟩ <;> rw [k]
  · exact h
  · exact inv_plus h name ty hn
  · exact inv_plus h name ty hn
  · exact inv_enumed (inv_plus h name ty hn) e.next n (Nat.lt_succ_self _)

theorem channel_ok {e : Env} {name : String} {ty : Ty} {enum : Option String} {ch : Ch}
    (h : (e.channel name ty enum).2 = .ok ch) :
    ch = ⟨e.next, ty⟩ ∧ dget e.items name = none ∧ e.finalized = false ∧
      dget (e.channel name ty enum).1.items name = some ch ∧ (e.channel name ty enum).1.items = dset e.items name ch := by
  rcases channel_cases e name ty enum with ⟨_, k⟩ | ⟨hf, hn, ⟨_, k⟩ | ⟨_, _, _, k⟩ | ⟨_, n, _, _, k⟩⟩ <;> rw [k] at h ⊢ <;>
    cases h <;> exact ⟨rfl, hn, hf, by simp [Env.plus, dget_dset_self], rfl⟩

theorem mem_add (e : Env) (c d : Cls) (i j : Nat) : j ∈ (e.add c i).set d ↔ (d = c ∧ j = i) ∨ j ∈ e.set d := by
  cases c <;> cases d <;> simp [Env.add, Env.set]

theorem add_items (e : Env) (c : Cls) (i : Nat) : (e.add c i).items = e.items ∧ (e.add c i).next = e.next ∧
    (e.add c i).chanEnums = e.chanEnums ∧ (e.add c i).finalized = e.finalized := by
  cases c <;> exact ⟨rfl, rfl, rfl, rfl⟩

theorem inv_add {e : Env} (h : Inv e) (c : Cls) (n : String) (ch : Ch) (hn : dget e.items n = some ch)
    (hc : cls ch.ty = c) : Inv (e.add c ch.id) := by
  obtain ⟨a1, a2, a3, _⟩ := add_items e c ch.id
  refine ⟨by rw [a1, a2]; exact h.old, by rw [a1]; exact h.one, by rw [a1]; exact h.keys, ?_, by rw [a2, a3]; exact h.enumed⟩
  intro d i hi
  rw [a1]
  rcases (mem_add _ _ _ _ _).1 hi with ⟨rfl, rfl⟩ | hi
  · exact ⟨n, ch, hn, rfl, hc⟩
  · exact h.sets d i hi

theorem inv_typed {e : Env} (h : Inv e) (c : Cls) (name : String) (ty : Ty) (enum : Option String) :
    Inv (e.typed c name ty enum).1 := by
  have hc := inv_channel h name ty enum
  have ho := @channel_ok e name ty enum
  unfold Env.typed
  generalize e.channel name ty enum = r at hc ho
  rcases r with ⟨e', x | ch⟩
  · exact hc
  · simp only []
    split
    · rename_i hk
      exact inv_add hc c name ch (ho rfl).2.2.2.1 hk
    · exact hc

theorem mem_reload {e : Env} (hk : (e.items.map Prod.fst).Nodup) (c : Cls) (i : Nat) :
    i ∈ e.reload.set c ↔ ∃ n ch, dget e.items n = some ch ∧ ch.id = i ∧ cls ch.ty = c := by
  have hs : e.reload.set c = (e.items.filter fun p => cls p.2.ty = c).map fun p => p.2.id := by cases c <;> rfl
  rw [hs, List.mem_map]
  have gm : ∀ (l : List (String × Ch)), (l.map Prod.fst).Nodup → ∀ p ∈ l, dget l p.1 = some p.2 := by
    intro l
    induction l with
    | nil => simp
    | cons q l ih =>
      intro hn p hp
      rw [List.map_cons, List.nodup_cons] at hn
      rw [dget_cons]
      rcases List.mem_cons.1 hp with rfl | hp
      · simp
      · rw [if_neg]
        · exact ih hn.2 p hp
        · intro hq; exact hn.1 (hq ▸ List.mem_map_of_mem hp)
  constructor
  · rintro ⟨p, hp, rfl⟩
    rw [List.mem_filter] at hp
    exact ⟨p.1, p.2, gm _ hk p hp.1, rfl, by simpa using hp.2⟩
  · rintro ⟨n, ch, h1, rfl, h3⟩
    exact ⟨(n, ch), List.mem_filter.2 ⟨dget_mem h1, by simpa using h3⟩, rfl⟩

theorem inv_step {e : Env} (h : Inv e) (o : Op) : Inv (step e o) := by
  cases o with
  | channel n t m => exact inv_channel h n t m
  | typed c n t m => exact inv_typed h c n t m
  | finalize => exact ⟨h.old, h.one, h.keys, fun c i hi => h.sets c i (by cases c <;> exact hi), h.enumed⟩
  | reload => exact ⟨h.old, h.one, h.keys, fun c i hi => (mem_reload h.keys c i).1 hi, h.enumed⟩

theorem inv_run (ops : List Op) : ∀ {e : Env}, Inv e → Inv (run e ops) := by
  induction ops with
  | nil => exact fun h => h
  | cons o os ih => exact fun h => ih (inv_step h o)

/-! ### Frames -/

theorem channel_keeps (e : Env) (name : String) (ty : Ty) (enum : Option String) (n : String) (ch : Ch)
    (h : dget e.items n = some ch) (hi : ch.id < e.next) :
    dget (e.channel name ty enum).1.items n = some ch ∧
      dget (e.channel name ty enum).1.chanEnums ch.id = dget e.chanEnums ch.id ∧
      (∀ c, (e.channel name ty enum).1.set c = e.set c) ∧ e.next ≤ (e.channel name ty enum).1.next := by
  have hp : ∀ (hn : dget e.items name = none), dget (e.plus name ty).items n = some ch := by
    intro hn
    simp only [Env.plus]
    rw [dget_dset_ne _ _ _ _ (by rintro rfl; rw [hn] at h; cases h)]
    exact h
  rcases channel_cases e name ty enum with ⟨_, k⟩ | ⟨_, hn, ⟨_, k⟩ | ⟨_, _, _, k⟩ | ⟨_, m, _, _, k⟩⟩ <;> rw [k]
  · exact ⟨h, rfl, fun _ => rfl, Nat.le_refl _⟩
  · exact ⟨hp hn, rfl, fun c => plus_set _ _ _ c, Nat.le_succ _⟩
  · exact ⟨hp hn, rfl, fun c => plus_set _ _ _ c, Nat.le_succ _⟩
  · refine ⟨hp hn, ?_, fun c => by cases c <;> rfl, Nat.le_succ _⟩
    exact dget_dset_ne _ _ _ _ (Nat.ne_of_gt hi)

theorem step_keeps {e : Env} (hinv : Inv e) (o : Op) (n : String) (ch : Ch) (h : dget e.items n = some ch) :
    dget (step e o).items n = some ch ∧ dget (step e o).chanEnums ch.id = dget e.chanEnums ch.id ∧
      (∀ c, ch.id ∈ (step e o).set c ↔ ch.id ∈ e.set c ∨ (o = .reload ∧ cls ch.ty = c)) := by
  have hi := hinv.old n ch h
  cases o with
  | channel name ty enum =>
    obtain ⟨h1, h2, h3, _⟩ := channel_keeps e name ty enum n ch h hi
    exact ⟨h1, h2, fun c => by simp only [step]; rw [h3]; simp⟩
  | typed c name ty enum =>
    obtain ⟨h1, h2, h3, _⟩ := channel_keeps e name ty enum n ch h hi
    have ho := @channel_ok e name ty enum
    simp only [step, Env.typed]
    generalize e.channel name ty enum = r at h1 h2 h3 ho
    rcases r with ⟨e', x | ch'⟩
    · exact ⟨h1, h2, fun c => by simp only []; rw [h3 c]; simp⟩
    · simp only []
      split
      · obtain ⟨a1, _, a3, _⟩ := add_items e' c ch'.id
        refine ⟨by rw [a1]; exact h1, by rw [a3]; exact h2, fun d => ?_⟩
        rw [mem_add, h3 d, (ho rfl).1]
        have : ch.id ≠ e.next := Nat.ne_of_lt hi
        simp [this]
      · exact ⟨h1, h2, fun d => by simp only []; rw [h3 d]; simp⟩
  | finalize => exact ⟨h, rfl, fun c => by cases c <;> simp [step, Env.set]⟩
  | reload =>
    refine ⟨h, rfl, fun c => ?_⟩
    simp only [step]
    rw [mem_reload hinv.keys]
    constructor
    · rintro ⟨m, b, h1, h2, h3⟩
      have hm : m = n := hinv.one m n b ch h1 h h2
      subst hm
      rw [h] at h1
      cases h1
      exact Or.inr ⟨trivial, h3⟩
    · rintro (h1 | ⟨_, h1⟩)
      · exact hinv.sets c _ h1
      · exact ⟨n, ch, h, rfl, h1⟩

theorem run_keeps (ops : List Op) {e : Env} (hinv : Inv e) (n : String) (ch : Ch) (h : dget e.items n = some ch) :
    dget (run e ops).items n = some ch ∧ dget (run e ops).chanEnums ch.id = dget e.chanEnums ch.id ∧
      (∀ c, ch.id ∈ (run e ops).set c ↔ ch.id ∈ e.set c ∨ (.reload ∈ ops ∧ cls ch.ty = c)) := by
  induction ops generalizing e with
  | nil => exact ⟨h, rfl, by simp [run]⟩
  | cons o os ih =>
    obtain ⟨h1, h2, h3⟩ := step_keeps hinv o n ch h
    obtain ⟨k1, k2, k3⟩ := ih (inv_step hinv o) h1
    refine ⟨k1, k2.trans h2, fun c => ?_⟩
    have : run e (o :: os) = run (step e o) os := rfl
    rw [this, k3 c, h3 c, List.mem_cons]
    constructor
    · rintro ((a | ⟨a, b⟩) | ⟨a, b⟩)
      · exact Or.inl a
      · exact Or.inr ⟨Or.inl a.symm, b⟩
      · exact Or.inr ⟨Or.inr a, b⟩
    · rintro (a | ⟨a | a, b⟩)
      · exact Or.inl (Or.inl a)
      · exact Or.inl (Or.inr ⟨a.symm, b⟩)
      · exact Or.inr ⟨a, b⟩

/-! ### Claims -/

/-- C129: what is found as an integer, boolean or float is the channel of that name, and of that type. -/
theorem C129_sound (enums : List (String × Nat)) (ops : List Op) (c : Cls) (name : String) (ch : Ch)
    (h : (run (.new enums) ops).getAs c name = .ok ch) :
    (∃ m, (run (.new enums) ops).get name = .ok (ch, m)) ∧ cls ch.ty = c := by
  have hi := inv_run ops (inv_new enums)
  generalize run (.new enums) ops = e at h hi
  unfold Env.getAs at h
  cases hg : e.get name with
  | error x => rw [hg] at h; cases h
  | ok p =>
    rw [hg] at h
    simp only [] at h
    split at h
    · rename_i hm
      cases h
      refine ⟨⟨p.2, rfl⟩, ?_⟩
      obtain ⟨n, b, h1, h2, h3⟩ := hi.sets c _ hm
      unfold Env.get at hg
      cases hd : dget e.items name with
      | none => rw [hd] at hg; cases hg
      | some a =>
        rw [hd] at hg
        cases hg
        have hn := hi.one n name b a h1 hd h2
        subst hn
        rw [hd] at h1
        cases h1
        exact h3
    · cases h

/-- C129: a channel made by the function for its type is found by it from then on, with its enumeration, whatever else is
created. -/
theorem C129_found (enums : List (String × Nat)) (before after : List Op) (c : Cls) (name : String) (ty : Ty)
    (enum : Option String) (ch : Ch) (h : ((run (.new enums) before).typed c name ty enum).2 = .ok ch) :
    let e := run (.new enums) (before ++ .typed c name ty enum :: after)
    ch.ty = ty ∧ e.getAs c name = .ok ch ∧
      e.get name = .ok (ch, enum.bind fun k => dget (run (.new enums) before).enums k) := by
  have hi := inv_run before (inv_new enums)
  have hr : run (.new enums) (before ++ .typed c name ty enum :: after) =
      run ((run (.new enums) before).typed c name ty enum).1 after := by
    simp [run, List.foldl_append, step]
  rw [hr]
  generalize run (.new enums) before = e at h hi
  have hit := inv_typed hi c name ty enum
  have hc := channel_cases e name ty enum
  unfold Env.typed at h hit ⊢
  have key : ∀ (e' : Env), Inv (e'.add c e.next) → dget e'.items name = some ⟨e.next, ty⟩ →
      dget e'.chanEnums e.next = (enum.bind fun k => dget e.enums k) →
      (run (e'.add c e.next) after).getAs c name = .ok ⟨e.next, ty⟩ ∧
        (run (e'.add c e.next) after).get name = .ok (⟨e.next, ty⟩, enum.bind fun k => dget e.enums k) := by
    intro e' hv h1 h2
    obtain ⟨a1, _, a3, _⟩ := add_items e' c e.next
    obtain ⟨k1, k2, k3⟩ := run_keeps after hv name ⟨e.next, ty⟩ (by rw [a1]; exact h1)
    have hg : (run (e'.add c e.next) after).get name =
        .ok (⟨e.next, ty⟩, enum.bind fun k => dget e.enums k) := by
      unfold Env.get
      rw [k1]
      simp only []
      rw [k2, a3, h2]
    refine ⟨?_, hg⟩
    unfold Env.getAs
    rw [hg]
    simp only []
    rw [if_pos ((k3 c).2 (Or.inl ((mem_add _ _ _ _ _).2 (Or.inl ⟨rfl, rfl⟩))))]
  rcases hc with ⟨_, k⟩ | ⟨_, hn, ⟨rfl, k⟩ | ⟨_, _, _, k⟩ | ⟨m, j, rfl, hm, k⟩⟩ <;> rw [k] at h hit ⊢ <;> simp only [] at h hit ⊢
  · cases h
  · split at h
    · cases h
      rename_i hcl
      rw [if_pos hcl] at hit ⊢
      have hnone : dget e.chanEnums e.next = none := by
        cases hx : dget e.chanEnums e.next with
        | none => rfl
        | some v => exact absurd (hi.enumed e.next (by rw [hx]; simp)) (Nat.lt_irrefl _)
      exact ⟨rfl, key _ hit (by simp [Env.plus, dget_dset_self]) hnone⟩
    · cases h
  · cases h
  · split at h
    · cases h
      rename_i hcl
      rw [if_pos hcl] at hit ⊢
      exact ⟨rfl, key _ hit (by simp [Env.plus, dget_dset_self]) (by simp [dget_dset_self, hm])⟩
    · cases h

/-- C129: in an environment made from a registry (a loaded one), every channel is found by the function for its type and
by no other. -/
theorem C129_loaded (enums : List (String × Nat)) (ops : List Op) (c : Cls) (name : String) (ch : Ch) :
    (run (.new enums) (ops ++ [.reload])).getAs c name = .ok ch ↔
      (∃ m, (run (.new enums) ops).get name = .ok (ch, m)) ∧ cls ch.ty = c := by
  have hr : run (.new enums) (ops ++ [.reload]) = (run (.new enums) ops).reload := by
    simp [run, List.foldl_append, step]
  constructor
  · intro h
    have := C129_sound enums (ops ++ [.reload]) c name ch h
    rw [hr] at this
    exact this
  · rintro ⟨⟨m, h⟩, hc⟩
    rw [hr]
    have hi := inv_run ops (inv_new enums)
    generalize run (.new enums) ops = e at h hi
    have hg : e.reload.get name = .ok (ch, m) := h
    unfold Env.getAs
    rw [hg]
    simp only []
    rw [if_pos]
    rw [mem_reload hi.keys]
    refine ⟨name, ch, ?_, rfl, hc⟩
    unfold Env.get at h
    cases hd : dget e.items name with
    | none => rw [hd] at h; cases h
    | some a => rw [hd] at h; cases h; rfl

/-- C129 fails for channels made by `channel`: until the environment is exported and loaded, they are found by no function
for a type, not by the one for theirs either. -/
theorem C129_plain_fails (enums : List (String × Nat)) (before after : List Op) (name : String) (ty : Ty)
    (enum : Option String) (ch : Ch) (h : ((run (.new enums) before).channel name ty enum).2 = .ok ch)
    (ha : .reload ∉ after) (c : Cls) :
    let e := run (.new enums) (before ++ .channel name ty enum :: after)
    (∃ m, e.get name = .ok (ch, m)) ∧ e.getAs c name = .error .key := by
  have hi := inv_run before (inv_new enums)
  have hr : run (.new enums) (before ++ .channel name ty enum :: after) =
      run ((run (.new enums) before).channel name ty enum).1 after := by
    simp [run, List.foldl_append, step]
  rw [hr]
  generalize run (.new enums) before = e at h hi
  obtain ⟨h1, hn, _, h2, _⟩ := channel_ok h
  have hs : ∀ d, (e.channel name ty enum).1.set d = e.set d := by
    intro d
    rcases channel_cases e name ty enum with ⟨_, k⟩ | ⟨_, _, ⟨_, k⟩ | ⟨_, _, _, k⟩ | ⟨_, _, _, _, k⟩⟩ <;> rw [k] <;>
      cases d <;> rfl
  obtain ⟨k1, k2, k3⟩ := run_keeps after (inv_channel hi name ty enum) name ch h2
  have hg : (run (e.channel name ty enum).1 after).get name =
      .ok (ch, dget (run (e.channel name ty enum).1 after).chanEnums ch.id) := by
    unfold Env.get; rw [k1]
  refine ⟨⟨_, hg⟩, ?_⟩
  unfold Env.getAs
  rw [hg]
  simp only []
  rw [if_neg]
  rw [k3 c, hs c]
  rintro (hx | ⟨hx, _⟩)
  · obtain ⟨m, b, b1, b2, _⟩ := hi.sets c _ hx
    have := hi.old m b b1
    rw [b2, h1] at this
    exact Nat.lt_irrefl _ this
  · exact ha hx

/-- C129 fails: a creation that is refused because of the type, or because there is no such enumeration, leaves the
channel behind, without enumeration in the second case. Every later attempt to create that name is refused. -/
theorem C129_refused_fails (enums : List (String × Nat)) (before after : List Op) (c : Cls) (name : String) (ty : Ty)
    (enum : Option String) (hf : (run (.new enums) before).finalized = false)
    (hn : (run (.new enums) before).get name = .error .key)
    (hbad : cls ty ≠ c ∨ ∃ k, enum = some k ∧ dget (run (.new enums) before).enums k = none) :
    let e := run (.new enums) (before ++ .typed c name ty enum :: after)
    (∀ ch, ((run (.new enums) before).typed c name ty enum).2 ≠ .ok ch) ∧
    (∃ ch m, e.get name = .ok (ch, m) ∧ ch.ty = ty ∧
      ((∃ k, enum = some k ∧ dget (run (.new enums) before).enums k = none) → m = none)) ∧
    ∀ d t m, (e.channel name t m).2 = .error .assertion ∧ (e.typed d name t m).2 = .error .assertion := by
  have hi := inv_run before (inv_new enums)
  have hr : run (.new enums) (before ++ .typed c name ty enum :: after) =
      run ((run (.new enums) before).typed c name ty enum).1 after := by
    simp [run, List.foldl_append, step]
  rw [hr]
  generalize run (.new enums) before = e at hf hn hbad hi
  have hn' : dget e.items name = none := by
    unfold Env.get at hn
    cases hd : dget e.items name with
    | none => rfl
    | some a => rw [hd] at hn; cases hn
  have hit := inv_typed hi c name ty enum
  have hd : dget (e.typed c name ty enum).1.items name = some ⟨e.next, ty⟩ := by
    unfold Env.typed
    rcases channel_cases e name ty enum with ⟨hx, _⟩ | ⟨_, _, ⟨_, k⟩ | ⟨_, _, _, k⟩ | ⟨_, _, _, _, k⟩⟩
    · rcases hx with hx | hx
      · rw [hf] at hx; cases hx
      · exact absurd hn' hx
    · rw [k]
      simp only []
      split
      · rw [(add_items _ _ _).1]; simp [Env.plus, dget_dset_self]
      · simp [Env.plus, dget_dset_self]
    · rw [k]; simp [Env.plus, dget_dset_self]
    · rw [k]
      simp only []
      split
      · rw [(add_items _ _ _).1]; simp [Env.plus, dget_dset_self]
      · simp [Env.plus, dget_dset_self]
  obtain ⟨k1, k2, _⟩ := run_keeps after hit name _ hd
  refine ⟨?_, ⟨⟨e.next, ty⟩, dget (run (e.typed c name ty enum).1 after).chanEnums e.next, ?_, rfl, ?_⟩, ?_⟩
  · intro ch
    unfold Env.typed
    rcases channel_cases e name ty enum with ⟨_, k⟩ | ⟨_, _, ⟨hx, k⟩ | ⟨_, _, _, k⟩ | ⟨m, j, hx, hm, k⟩⟩ <;> rw [k]
    · simp
    · rcases hbad with hb | ⟨k, hk, _⟩
      · simp [hb]
      · rw [hx] at hk; cases hk
    · simp
    · rcases hbad with hb | ⟨k, hk, hk'⟩
      · simp [hb]
      · rw [hx] at hk; cases hk; rw [hm] at hk'; cases hk'
  · unfold Env.get; rw [k1]
  · rintro ⟨k, hk, hk'⟩
    refine k2.trans ?_
    show dget (e.typed c name ty enum).1.chanEnums e.next = none
    have hnone : dget e.chanEnums e.next = none := by
      cases hx : dget e.chanEnums e.next with
      | none => rfl
      | some v => exact absurd (hi.enumed e.next (by rw [hx]; simp)) (Nat.lt_irrefl _)
    unfold Env.typed
    rcases channel_cases e name ty enum with ⟨_, q⟩ | ⟨_, _, ⟨hx, q⟩ | ⟨_, _, _, q⟩ | ⟨m, j, hx, hm, q⟩⟩ <;> rw [q]
    · exact hnone
    · rw [hx] at hk; cases hk
    · exact hnone
    · rw [hx] at hk; cases hk; rw [hm] at hk'; cases hk'
  · intro d t m
    have hc : (run (e.typed c name ty enum).1 after).channel name t m =
        (run (e.typed c name ty enum).1 after, .error .assertion) := by
      rcases channel_cases (run (e.typed c name ty enum).1 after) name t m with ⟨_, k⟩ | ⟨_, hx, _⟩
      · exact k
      · rw [k1] at hx; cases hx
    refine ⟨by rw [hc], ?_⟩
    generalize run (e.typed c name ty enum).1 after = e' at hc
    unfold Env.typed
    rw [hc]

/-- C129: nothing is created once the environment is finalized. -/
theorem C129_finalized (enums : List (String × Nat)) (before after : List Op) :
    (run (.new enums) (before ++ .finalize :: after)).items = (run (.new enums) before).items := by
  have hr : run (.new enums) (before ++ .finalize :: after) =
      run { run (.new enums) before with finalized := true } after := by
    simp [run, List.foldl_append, step]
  rw [hr]
  suffices h : ∀ (l : List Op) (e : Env), e.finalized = true → (run e l).items = e.items ∧ (run e l).finalized = true from
    (h after { run (.new enums) before with finalized := true } rfl).1
  intro l
  induction l with
  | nil => exact fun e h => ⟨rfl, h⟩
  | cons o os ih =>
    intro e h
    have hs : (step e o).items = e.items ∧ (step e o).finalized = true := by
      cases o with
      | channel n t m => simp [step, Env.channel, h]
      | typed c n t m => simp [step, Env.typed, Env.channel, h]
      | finalize => exact ⟨rfl, rfl⟩
      | reload => exact ⟨rfl, h⟩
    have := ih (step e o) hs.2
    exact ⟨this.1.trans hs.1, this.2⟩

/-- `add_int`, base.py 262–267, on the value of an integer channel. -/
def addInt (k : Wire.IntKind) (v amount : Int) : Int := Wire.wrap k (v + amount)

/-- C129: after any amounts the value is the start plus their sum, as long as the type has that number; always it is
congruent to it and one of the type's numbers. -/
theorem C129_add (k : Wire.IntKind) (v : Int) (amounts : List Int) (hv : Wire.packable k.size k.signed v = true) :
    let r := amounts.foldl (addInt k) v
    r % 2 ^ k.bits = (v + amounts.sum) % 2 ^ k.bits ∧ Wire.packable k.size k.signed r = true ∧
      (Wire.packable k.size k.signed (v + amounts.sum) = true → r = v + amounts.sum) := by
  have h : ∀ (l : List Int) (v : Int), Wire.packable k.size k.signed v = true →
      l.foldl (addInt k) v = Wire.wrap k (v + l.sum) := by
    intro l
    induction l with
    | nil => intro v hv; simp [Wire.wrap_of_packable k v hv]
    | cons a l ih =>
      intro v hv
      rw [List.foldl_cons, ih (addInt k v a) (Wire.wrap_packable k _)]
      have e : ∀ x y : Int, x % 2 ^ k.bits = y % 2 ^ k.bits → Wire.wrap k x = Wire.wrap k y := by
        intro x y hxy
        unfold Wire.wrap Wire.toPattern
        have hb : 8 * k.size = k.bits := by cases k <;> rfl
        rw [hb, hxy]
      apply e
      unfold addInt
      rw [Int.add_emod, Wire.wrap_emod, ← Int.add_emod, List.sum_cons]
      congr 1
      omega
  simp only [h amounts v hv]
  exact ⟨Wire.wrap_emod k _, Wire.wrap_packable k _, fun hp => Wire.wrap_of_packable k _ hp⟩

/-! ### Examples -/

theorem C129_cases :
    let e := run (.new [("E", 4)]) [.typed .int "a" (.int .uint8) (some "E"), .channel "b" .double none,
      .typed .bool "c" (.int .int8) none, .typed .float "d" .float (some "missing")]
    e.get "a" = .ok (⟨1, .int .uint8⟩, some 4) ∧ e.getAs .int "a" = .ok ⟨1, .int .uint8⟩ ∧
    e.getAs .bool "a" = .error .key ∧
    e.getAs .float "b" = .error .key ∧ e.reload.getAs .float "b" = .ok ⟨2, .double⟩ ∧
    e.get "c" = .ok (⟨3, .int .int8⟩, none) ∧ e.getAs .int "c" = .error .key ∧
    e.get "d" = .ok (⟨4, .float⟩, none) ∧ e.getAs .float "d" = .error .key := by decide +kernel

example : [1, 1, -1].foldl (addInt .uint8) 254 = (255 : Int) ∧ [1, 1].foldl (addInt .uint8) 254 = (0 : Int) := by
  decide +kernel

end Verif.Typed
