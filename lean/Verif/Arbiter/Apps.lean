import Verif.Base
/-!
C124: which application methods an arbiter runs: `net/arbiter/imports/util.py` 16–46 (`get_apps`), the end of
`process_config`, `net/arbiter/config/__init__.py` 229–235, `normalize_app` and the run of the two lists,
`net/arbiter/base.py` 63–76, 319–330 and 368–383, `net/apps/__init__.py` 16–22 (`wait_for_stop`).

Importing a path is a parameter: it gives a method or raises. What the methods of one stage do together is a
parameter with a result (C55 is about that); what an exception of a stage does is left out (C55, C104).
-/
namespace Verif.Apps
open Verif

variable {Str App E σ : Type}

/-- An entry of the list under `app` or `init`: a path, or several which are run together. -/
inductive Item (Str : Type) where
  | one (p : Str)
  | many (ps : List Str)
  deriving DecidableEq, Repr

/-- The value of `app` or `init`, `ConfigApps` (codec.py 20). -/
inductive Conf (Str : Type) where
  | none
  | text (p : Str)
  | list (l : List (Item Str))
  deriving DecidableEq, Repr

/-- Imports of one stage, util.py 38–42. -/
def importAll (imp : Str → Except E App) : List Str → Except E (List App)
  | [] => .ok []
  | p :: ps =>
    match imp p with
    | .error e => .error e
    | .ok a => (importAll imp ps).map (a :: ·)

/-- util.py 35–36 -/
def Item.paths : Item Str → List Str
  | .one p => [p]
  | .many ps => ps

/-- The loop, util.py 32–44. -/
def importStages (imp : Str → Except E App) : List (Item Str) → Except E (List (List App))
  | [] => .ok []
  | i :: l =>
    match importAll imp i.paths with
    | .error e => .error e
    | .ok s => (importStages imp l).map (s :: ·)

/-- `module_path` before the loop, util.py 23–29, and the configuration's value afterwards: a list is the object
that is appended to. -/
def withWait (wait : Str) (flag : Bool) : Conf Str → List (Item Str) × Conf Str
  | .none => (if flag then [.one wait] else [], .none)
  | .text p => (.one p :: if flag then [.one wait] else [], .text p)
  | .list l => if flag then (l ++ [.one wait], .list (l ++ [.one wait])) else (l, .list l)

/-- `get_apps`, util.py 16–46, with what becomes of the configuration's value. -/
def getApps (imp : Str → Except E App) (wait : Str) (flag : Bool) (c : Conf Str) :
    Conf Str × Except E (List (List App)) :=
  ((withWait wait flag c).2, importStages imp (withWait wait flag c).1)

/-- `_inits` and `_apps` of an arbiter. -/
structure Arb (App : Type) where
  inits : List (List App)
  apps : List (List App)

/-- `normalize_app`, base.py 63–76: `own` is the application given to the arbiter. -/
def Arb.new (initOnly : App) : Option (List App) → Arb App
  | none => ⟨[], [[initOnly]]⟩
  | some l => ⟨[], [l]⟩

/-- The values under `init` and `app`. -/
structure Data (Str : Type) where
  init : Conf Str
  app : Conf Str

/-- config/__init__.py 229–235. -/
def Arb.load (imp : Str → Except E App) (wait : Str) (flag : Bool) (a : Arb App) (d : Data Str) :
    Arb App × Data Str × Option E :=
  match getApps imp wait false d.init with
  | (_, .error e) => (a, d, some e)
  | (_, .ok inits) =>
    match getApps imp wait flag d.app with
    | (c, .error e) => ({ a with inits := inits }, { d with app := c }, some e)
    | (c, .ok apps) => (⟨inits, if apps.isEmpty then a.apps else apps⟩, { d with app := c }, none)

/-- `_run_apps_list`, base.py 368–383: the state, the stages that were run, the result. -/
def runList (stage : σ → List App → σ × Int) : σ → List (List App) → σ × List (List App) × Int
  | s, [] => (s, [], 0)
  | s, l :: r =>
    let q := stage s l
    if q.2 = 0 then
      let t := runList stage q.1 r
      (t.1, l :: t.2.1, t.2.2)
    else (q.1, [l], q.2)

/-- base.py 319–330: the first list, and the second if the result is 0; `app` is what was given to the run. -/
def Arb.run (stage : σ → List App → σ × Int) (a : Arb App) (app : Option (List App)) (s : σ) :
    σ × List (List App) × Int :=
  let i := runList stage s a.inits
  if i.2.2 = 0 then
    let t := runList stage i.1 (match app with | none => a.apps | some l => [l])
    (t.1, i.2.1 ++ t.2.1, t.2.2)
  else i

/-! ### Lemmas -/

theorem importAll_ok {imp : Str → Except E App} {ps : List Str} {as : List App} :
    importAll imp ps = .ok as ↔ ps.map imp = as.map .ok := by
  induction ps generalizing as with
  | nil => cases as <;> simp [importAll]
  | cons p ps ih =>
    simp only [importAll]
    cases h : imp p with
    | error e => cases as <;> simp [h]
    | ok a =>
      cases h2 : importAll imp ps with
      | error e =>
        cases as with
        | nil => simp [Except.map]
        | cons b bs =>
          simp only [Except.map, reduceCtorEq, List.map_cons, List.cons.injEq, false_iff, not_and]
          intro _ hm
          exact absurd (ih.mpr hm) (by simp [h2])
      | ok bs =>
        cases as with
        | nil => simp [Except.map]
        | cons b cs =>
          have e : importAll imp ps = .ok cs ↔ bs = cs := by rw [h2]; simp
          simp only [Except.map, Except.ok.injEq, List.cons.injEq, List.map_cons, h, ← ih, e]

theorem importStages_ok {imp : Str → Except E App} {l : List (Item Str)} {ss : List (List App)} :
    importStages imp l = .ok ss ↔ l.map (fun i => i.paths.map imp) = ss.map (·.map .ok) := by
  induction l generalizing ss with
  | nil => cases ss <;> simp [importStages]
  | cons i l ih =>
    simp only [importStages]
    cases h : importAll imp i.paths with
    | error e =>
      cases ss with
      | nil => simp
      | cons b bs =>
        simp only [reduceCtorEq, List.map_cons, List.cons.injEq, false_iff, not_and]
        intro hm
        exact absurd (importAll_ok.mpr hm) (by simp [h])
    | ok a =>
      have ha := importAll_ok.mp h
      cases h2 : importStages imp l with
      | error e =>
        cases ss with
        | nil => simp [Except.map]
        | cons b bs =>
          simp only [Except.map, reduceCtorEq, List.map_cons, List.cons.injEq, false_iff, not_and]
          intro _ hm
          exact absurd (ih.mpr hm) (by simp [h2])
      | ok bs =>
        cases ss with
        | nil => simp [Except.map]
        | cons b cs =>
          have e : importStages imp l = .ok cs ↔ bs = cs := by rw [h2]; simp
          have e2 : importAll imp i.paths = .ok b ↔ a = b := by rw [h]; simp
          simp only [Except.map, Except.ok.injEq, List.cons.injEq, List.map_cons, ← ih, ← importAll_ok, e, e2]

theorem runList_append (stage : σ → List App → σ × Int) (s : σ) (l r : List (List App)) :
    (runList stage s (l ++ r)).2.2 = 0 →
    (runList stage s l).2.2 = 0 ∧ (runList stage s l).2.1 = l ∧
    (runList stage s (l ++ r)) =
      ((runList stage (runList stage s l).1 r).1, l ++ (runList stage (runList stage s l).1 r).2.1,
       (runList stage (runList stage s l).1 r).2.2) := by
  induction l generalizing s with
  | nil => intro _; simp [runList]
  | cons x l ih =>
    simp only [List.cons_append, runList]
    by_cases h : (stage s x).2 = 0
    · simp only [h, if_true]
      intro h0
      have := ih (stage s x).1 h0
      refine ⟨this.1, by rw [this.2.1], ?_⟩
      rw [this.2.2]
    · simp [h]

/-! ### Claims -/

/-- The entries of the configuration as the documentation means them: stages of paths. -/
def meant : Conf Str → List (List Str)
  | .none => []
  | .text p => [[p]]
  | .list l => l.map fun | .one p => [p] | .many ps => ps

theorem paths_meant (l : List (Item Str)) : (l.map Item.paths) = meant (.list l) := by
  simp only [meant]
  exact List.map_congr_left fun i _ => by cases i <;> rfl

/-- Loading without the flag: if every path can be imported, the methods run are those of the configuration, stage by
stage in order; where it names none, those the arbiter was made with. The configuration is not changed. -/
theorem C124_stages (imp : Str → Except E App) (wait : Str) (a : Arb App) (d : Data Str)
    (h : (a.load imp wait false d).2.2 = none) :
    (a.load imp wait false d).2.1 = d ∧
    (meant d.init).map (·.map imp) = ((a.load imp wait false d).1.inits).map (·.map .ok) ∧
    (meant d.app = [] → (a.load imp wait false d).1.apps = a.apps) ∧
    (meant d.app ≠ [] → (meant d.app).map (·.map imp) = ((a.load imp wait false d).1.apps).map (·.map .ok)) := by
  have key : ∀ c : Conf Str, (withWait wait false c).2 = c ∧ (withWait wait false c).1.map Item.paths = meant c := by
    intro c
    cases c with
    | none => simp [withWait, meant]
    | text p => simp [withWait, meant, Item.paths]
    | list l => simp only [withWait]; exact ⟨rfl, paths_meant l⟩
  unfold Arb.load at *
  simp only [getApps] at *
  cases h1 : importStages imp (withWait wait false d.init).1 with
  | error e => simp [h1] at h
  | ok inits =>
    simp only [h1] at h ⊢
    cases h2 : importStages imp (withWait wait false d.app).1 with
    | error e => simp [h2] at h
    | ok apps =>
      simp only
      have e1 := importStages_ok.mp h1
      have e2 := importStages_ok.mp h2
      have f1 : (meant d.init).map (·.map imp) = inits.map (·.map .ok) := by
        rw [← (key d.init).2, List.map_map, ← e1]; rfl
      have f2 : (meant d.app).map (·.map imp) = apps.map (·.map .ok) := by
        rw [← (key d.app).2, List.map_map, ← e2]; rfl
      refine ⟨by rw [(key d.app).1], f1, fun hm => ?_, fun hm => ?_⟩
      · rw [hm] at f2
        cases apps with
        | nil => rfl
        | cons x y => simp at f2
      · cases apps with
        | nil => simp at f2; exact absurd f2 hm
        | cons x y => exact f2

/-- With the flag, the stages of the configuration are followed by one stage with the method that waits. -/
theorem C124_wait_last (imp : Str → Except E App) (wait : Str) (a : Arb App) (d : Data Str)
    (h : (a.load imp wait true d).2.2 = none) :
    ∃ stages w, imp wait = .ok w ∧ (a.load imp wait true d).1.apps = stages ++ [[w]] ∧
      (meant d.app).map (·.map imp) = stages.map (·.map .ok) := by
  have key : (withWait wait true d.app).1.map Item.paths = meant d.app ++ [[wait]] := by
    cases d.app with
    | none => simp [withWait, meant, Item.paths]
    | text p => simp [withWait, meant, Item.paths]
    | list l =>
      simp only [withWait, if_true, List.map_append, paths_meant]
      rfl
  unfold Arb.load at *
  simp only [getApps] at *
  cases h1 : importStages imp (withWait wait false d.init).1 with
  | error e => simp [h1] at h
  | ok inits =>
    simp only [h1] at h ⊢
    cases h2 : importStages imp (withWait wait true d.app).1 with
    | error e => simp [h2] at h
    | ok apps =>
      have e2 := importStages_ok.mp h2
      have f2 : (meant d.app ++ [[wait]]).map (·.map imp) = apps.map (·.map .ok) := by
        rw [← key, List.map_map, ← e2]; rfl
      rw [List.map_append] at f2
      obtain ⟨s, t, rfl, hs, ht⟩ := List.map_eq_append_iff.mp f2.symm
      have hw : ∃ w, t = [[w]] ∧ imp wait = .ok w := by
        cases t with
        | nil => simp at ht
        | cons y t =>
          cases t with
          | cons _ _ => simp at ht
          | nil =>
            cases y with
            | nil => simp at ht
            | cons w y =>
              cases y with
              | cons _ _ => simp at ht
              | nil => exact ⟨w, rfl, by simpa using ht.symm⟩
      obtain ⟨w, rfl, hw⟩ := hw
      exact ⟨s, w, hw, by simp, hs.symm⟩

/-- A run with the flag gives 0 only after the method that waits was run as the last stage, after every stage of the
configuration, so only once the stop signal is set. -/
theorem C124_zero_waits (imp : Str → Except E App) (wait : Str) (w : App) (a : Arb App) (d : Data Str)
    (h : (a.load imp wait true d).2.2 = none) (hw : imp wait = .ok w)
    (stage : σ → List App → σ × Int) (stopped : σ → Prop) (hs : ∀ s, stopped (stage s [w]).1) (s : σ)
    (hr : ((a.load imp wait true d).1.run stage none s).2.2 = 0) :
    stopped ((a.load imp wait true d).1.run stage none s).1 ∧
    ∃ inits stages, ((a.load imp wait true d).1.run stage none s).2.1 = inits ++ stages ++ [[w]] ∧
      (meant d.init).map (·.map imp) = inits.map (·.map .ok) ∧
      (meant d.app).map (·.map imp) = stages.map (·.map .ok) := by
  obtain ⟨stages, w', hw', ha, hm⟩ := C124_wait_last imp wait a d h
  have : w' = w := by rw [hw] at hw'; exact (Except.ok.inj hw').symm
  subst this
  have hi : (meant d.init).map (·.map imp) = ((a.load imp wait true d).1.inits).map (·.map .ok) := by
    unfold Arb.load at *
    simp only [getApps] at *
    have key : (withWait wait false d.init).1.map Item.paths = meant d.init := by
      cases d.init with
      | none => simp [withWait, meant]
      | text p => simp [withWait, meant, Item.paths]
      | list l => simp only [withWait]; exact paths_meant l
    cases h1 : importStages imp (withWait wait false d.init).1 with
    | error e => simp [h1] at h
    | ok inits =>
      have e1 := importStages_ok.mp h1
      simp only [h1] at h ⊢
      have f1 : (meant d.init).map (·.map imp) = inits.map (·.map .ok) := by
        rw [← key, List.map_map, ← e1]; rfl
      cases h2 : importStages imp (withWait wait true d.app).1 with
      | error e => simp [h2] at h
      | ok apps => exact f1
  generalize (a.load imp wait true d).1 = b at *
  unfold Arb.run at *
  by_cases h0 : (runList stage s b.inits).2.2 = 0
  · simp only [h0, if_true] at hr ⊢
    have hil : (runList stage s b.inits).2.1 = b.inits := by
      have := runList_append stage s b.inits [] (by simpa using h0)
      exact this.2.1
    rw [ha] at hr ⊢
    obtain ⟨_, h2, h3⟩ := runList_append stage _ stages [[w']] hr
    rw [h3] at hr ⊢
    simp only [runList] at hr ⊢
    refine ⟨?_, b.inits, stages, ?_, hi, hm⟩
    · split <;> exact hs _
    · split
      · simp [hil]
      · simp [hil]
  · simp only [h0, if_false] at hr

/-- **False in general: with the flag, the application that an arbiter was made with is not run** when the
configuration names none; only the waiting is. -/
theorem C124_own_fails (imp : Str → Except E App) (wait : Str) (w : App) (a : Arb App) (d : Data Str)
    (hd : d.app = .none) (hi : d.init = .none) (hw : imp wait = .ok w) :
    (a.load imp wait true d).1.apps = [[w]] ∧ (a.load imp wait true d).2.2 = none ∧
    (a.load imp wait false d).1.apps = a.apps := by
  simp [Arb.load, getApps, hd, hi, withWait, importStages, importAll, Item.paths, hw, Except.map]

/-- **The flag changes the configuration.** A list under `app` has the waiting afterwards (and every further load
of the same data adds it again), so that the configuration reported by the application is not the one of its files; a
text stays. -/
theorem C124_config_fails (imp : Str → Except E App) (wait : Str) (a : Arb App) (d : Data Str)
    (l : List (Item Str)) (hd : d.app = .list l)
    (hi : ∃ x, importStages imp (withWait wait false d.init).1 = .ok x) :
    (a.load imp wait true d).2.1.app = .list (l ++ [.one wait]) ∧
    ((a.load imp wait true d).1.load imp wait true (a.load imp wait true d).2.1).2.1.app =
      .list (l ++ [.one wait] ++ [.one wait]) := by
  obtain ⟨x, hx⟩ := hi
  have e : ∀ (b : Arb App) (m : List (Item Str)) (d : Data Str), d.app = .list m →
      importStages imp (withWait wait false d.init).1 = .ok x →
      (b.load imp wait true d).2.1.app = .list (m ++ [.one wait]) ∧ (b.load imp wait true d).2.1.init = d.init := by
    intro b m d hm hx
    unfold Arb.load
    simp only [getApps, hx]
    rw [hm]
    simp only [withWait, if_true]
    cases importStages imp (m ++ [.one wait]) <;> simp
  have h1 := e a l d hd hx
  refine ⟨h1.1, ?_⟩
  exact (e _ (l ++ [.one wait]) _ h1.1 (by rw [h1.2]; exact hx)).1

/-- If a path cannot be imported, the arbiter's application stays what it was. -/
theorem C124_kept (imp : Str → Except E App) (wait : Str) (flag : Bool) (a : Arb App) (d : Data Str) (e : E)
    (h : (a.load imp wait flag d).2.2 = some e) :
    (a.load imp wait flag d).1.apps = a.apps ∧
    ∃ p, imp p = .error e := by
  have one : ∀ ps : List Str, importAll imp ps = .error e → ∃ p, imp p = .error e := by
    intro ps
    induction ps with
    | nil => simp [importAll]
    | cons p ps ih =>
      simp only [importAll]
      cases hp : imp p with
      | error x => intro hx; exact ⟨p, by rw [hp, ← Except.error.inj hx]⟩
      | ok x =>
        cases hq : importAll imp ps with
        | error y => intro hx; simp only [Except.map] at hx; exact ih (by rw [hq, ← Except.error.inj hx])
        | ok y => simp [Except.map]
  have all : ∀ l : List (Item Str), importStages imp l = .error e → ∃ p, imp p = .error e := by
    intro l
    induction l with
    | nil => simp [importStages]
    | cons i l ih =>
      simp only [importStages]
      cases hp : importAll imp i.paths with
      | error x => intro hx; exact one i.paths (by rw [hp, ← Except.error.inj hx])
      | ok x =>
        cases hq : importStages imp l with
        | error y => intro hx; simp only [Except.map] at hx; exact ih (by rw [hq, ← Except.error.inj hx])
        | ok y => simp [Except.map]
  unfold Arb.load at *
  simp only [getApps] at *
  cases h1 : importStages imp (withWait wait false d.init).1 with
  | error x => simp only [h1] at h ⊢; exact ⟨trivial, all _ (by rw [h1, Option.some.inj h])⟩
  | ok x =>
    simp only [h1] at h ⊢
    cases h2 : importStages imp (withWait wait flag d.app).1 with
    | error y => simp only [h2] at h ⊢; exact ⟨trivial, all _ (by rw [h2, Option.some.inj h])⟩
    | ok y => simp [h2] at h

/-- A list is run in order up to the first stage with a result other than 0, which is the result; if an
initialisation fails, no application is run. -/
theorem C124_first_failure (stage : σ → List App → σ × Int) (a : Arb App) (app : Option (List App)) (s : σ)
    (l r : List (List App)) (x : List App) (hi : a.inits = l ++ x :: r)
    (hl : (runList stage s l).2.2 = 0) (hx : (stage (runList stage s l).1 x).2 ≠ 0) :
    (a.run stage app s).2 = (l ++ [x], (stage (runList stage s l).1 x).2) := by
  have e : ∀ (l : List (List App)) (s : σ), (runList stage s l).2.2 = 0 →
      (stage (runList stage s l).1 x).2 ≠ 0 →
      (runList stage s (l ++ x :: r)).2 = (l ++ [x], (stage (runList stage s l).1 x).2) := by
    intro l
    induction l with
    | nil => intro s _ h; simp only [List.nil_append, runList] at *; simp [h]
    | cons y l ih =>
      intro s h1 h2
      simp only [List.cons_append, runList] at *
      by_cases h : (stage s y).2 = 0
      · simp only [h, if_true] at h1 h2 ⊢
        rw [Prod.ext_iff] at *
        have := ih _ h1 h2
        rw [Prod.ext_iff] at this
        exact ⟨by simpa using this.1, this.2⟩
      · simp [h] at h1
  have := e l s hl hx
  unfold Arb.run
  rw [hi]
  have h0 : (runList stage s (l ++ x :: r)).2.2 ≠ 0 := by rw [this]; exact hx
  simp only [h0, if_false]
  exact this

/-! ### Cases -/

def exImp : Nat → Except Unit Nat := fun n => if n < 100 then .ok (n + 1000) else .error ()
def exData : Data Nat := ⟨.text 7, .list [.one 1, .many [2, 3]]⟩
def exArb : Arb Nat := Arb.new 5 (some [4])
/-- Stages add up; the wait (1099) sets the flag. -/
def exStage : Bool × Nat → List Nat → (Bool × Nat) × Int
  | (b, n), l => ((b || l == [1099], n + l.length), if n = 2 ∧ l.length = 1 ∧ l ≠ [1099] then 3 else 0)

theorem C124_cases :
    (exArb.load exImp 99 true exData).1.apps = [[1001], [1002, 1003], [1099]] ∧
    (exArb.load exImp 99 true exData).1.inits = [[1007]] ∧
    (exArb.load exImp 99 false ⟨.none, .none⟩).1.apps = [[4]] ∧
    (exArb.load exImp 99 true ⟨.none, .none⟩).1.apps = [[1099]] ∧
    (exArb.load exImp 99 true ⟨.none, .list [.one 300]⟩).2.2 = some () ∧
    (exArb.load exImp 99 true ⟨.none, .list [.one 300]⟩).1.apps = [[4]] ∧
    ((exArb.load exImp 99 true exData).1.run exStage none (false, 0)) =
      ((true, 5), [[1007], [1001], [1002, 1003], [1099]], 0) ∧
    ((exArb.load exImp 99 true exData).1.run exStage none (false, 1)) = ((false, 3), [[1007], [1001]], 3) ∧
    ((exArb.load exImp 99 true exData).1.run exStage none (false, 2)) = ((false, 3), [[1007]], 3) := by
  decide +kernel

end Verif.Apps
