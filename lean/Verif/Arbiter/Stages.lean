import Verif.Base

/-!
# Application stages (C55)

`net/arbiter/base.py` 248-430 (`_main`, `_entry`, `_run_apps_list`, `_run_apps`)
and `net/arbiter/result.py` 15-111.

An application is its name and what it does when it is run: it returns an
exit code or raises an exception (`none`). Simplifications: durations and
logging are left out; what raises is an `Exception` (cancellation and
keyboard interrupts leave the program).
-/

namespace Verif.Arbiter

/-- `ResultState` (`result.py` 15-21). -/
inductive State where
  | pass
  | fail
  | notRun
  | exception
deriving DecidableEq

/-- `ResultState.from_int` (`result.py` 36-39). -/
def State.fromInt (code : Int) : State := if code = 0 then .pass else .fail

/-- `AppResult` (`result.py` 42-48). -/
structure Result where
  method : String
  state : State
  code : Option Int
deriving DecidableEq

/-- `AppResult(name)`: not run. -/
def Result.placeholder (name : String) : Result := ⟨name, .notRun, none⟩

/-- An application and what running it does. -/
structure App where
  name : String
  outcome : Option Int

/-- `_run_apps` (`base.py` 385-430): every application of the stage is started;
`gather` raises if one of them does. -/
def runStage (apps : List App) : Int × List Result :=
  if apps.all (fun a => a.outcome.isSome) then
    ((apps.map (fun a => a.outcome.getD 0)).foldl (· + ·) 0,
     apps.map (fun a => ⟨a.name, .fromInt (a.outcome.getD 0), some (a.outcome.getD 0)⟩))
  else
    (-1, apps.map (fun a => ⟨a.name, .exception, none⟩))

/-- `_run_apps_list` (`base.py` 368-383) from a result and a record so far:
the result, the record, and the stages that were run. -/
def runList : List (List App) → Int → List (List Result) → List (List App) →
    Int × List (List Result) × List (List App)
  | [], result, record, ran => (result, record, ran)
  | stage :: stages, result, record, ran =>
    if result = 0 then
      runList stages (runStage stage).1 (record ++ [(runStage stage).2]) (ran ++ [stage])
    else
      runList stages result (record ++ [stage.map (fun a => .placeholder a.name)]) ran

/-- `_run_apps_list` (`base.py` 368-383). -/
def runApps (stages : List (List App)) (record : List (List Result)) :
    Int × List (List Result) × List (List App) := runList stages 0 record []

/-- The end of `_main` (`base.py` 280-330): `disabled` tells for every
registered connection whether it is disabled. The record is what
`info.results` holds (nothing when there is no `info`). -/
def main (check : Bool) (disabled : List Bool) (inits apps : List (List App)) :
    Int × Option (List (List Result)) × List (List App) :=
  if !check || !disabled.any id then
    let r := runApps inits []
    if r.1 = 0 then
      let q := runApps apps r.2.1
      (q.1, some q.2.1, r.2.2 ++ q.2.2)
    else (r.1, some r.2.1, r.2.2)
  else (-1, none, [])

/-- `log_stage` and `results` (`result.py` 77-111). -/
def allPass (record : List (List Result)) : Bool :=
  record.all (fun stage => stage.all (fun r => r.state = .pass))

/-! ## The stages that run -/

theorem runList_failed (stages : List (List App)) (result : Int) (record : List (List Result))
    (ran : List (List App)) (h : result ≠ 0) :
    runList stages result record ran =
      (result, record ++ stages.map (·.map (fun a => Result.placeholder a.name)), ran) := by
  induction stages generalizing record with
  | nil => simp [runList]
  | cons s ss ih =>
    rw [runList, if_neg h, ih]
    simp [List.append_assoc]

/-- A list of stages falls into those that ran and those that did not. -/
theorem runList_spec (stages : List (List App)) (record : List (List Result))
    (ran : List (List App)) :
    ∃ k, k ≤ stages.length ∧
      (∀ i (h : i < stages.length), i + 1 < k → (runStage stages[i]).1 = 0) ∧
      (runList stages 0 record ran).2.2 = ran ++ stages.take k ∧
      (runList stages 0 record ran).2.1 = record ++
        (stages.take k).map (fun s => (runStage s).2) ++
        (stages.drop k).map (·.map (fun a => Result.placeholder a.name)) ∧
      (k < stages.length → (runList stages 0 record ran).1 ≠ 0) ∧
      (runList stages 0 record ran).1 =
        match (stages.take k).getLast? with
        | some s => (runStage s).1
        | none => 0 := by
  induction stages generalizing record ran with
  | nil => exact ⟨0, Nat.le_refl _, fun i h => absurd h (by simp), by simp [runList],
      by simp [runList], by simp, by simp [runList]⟩
  | cons s ss ih =>
    rw [runList, if_pos rfl]
    by_cases h0 : (runStage s).1 = 0
    · rw [h0]
      obtain ⟨k, h1, h2, h3, h4, h5, h6⟩ := ih (record ++ [(runStage s).2]) (ran ++ [s])
      refine ⟨k + 1, by simp only [List.length_cons]; omega, ?_, ?_, ?_, ?_, ?_⟩
      · intro i hi hk
        cases i with
        | zero => exact h0
        | succ i => exact h2 i (by simpa using hi) (by omega)
      · rw [h3]; simp
      · rw [h4]; simp
      · intro hk; exact h5 (by simpa using hk)
      · rw [h6]
        cases hss : ss.take k with
        | nil => simp [hss, h0]
        | cons t ts =>
          simp only [List.take_succ_cons, hss]
          rw [List.getLast?_cons_cons]
    · rw [runList_failed _ _ _ _ h0]
      refine ⟨1, by simp, ?_, ?_, ?_, ?_, ?_⟩
      · intro i hi hk; omega
      · simp
      · simp
      · intro _; exact h0
      · simp

/-- C55: the stages that run are the first ones of the configured list, in
order; every one of them except the last had the exit code zero; if any stage
was left out, the exit code is not zero; and the exit code is that of the
last stage that ran. -/
theorem C55_order (stages : List (List App)) (record : List (List Result)) :
    ∃ k, k ≤ stages.length ∧
      (runApps stages record).2.2 = stages.take k ∧
      (∀ i (h : i < stages.length), i + 1 < k → (runStage stages[i]).1 = 0) ∧
      (k < stages.length → (runApps stages record).1 ≠ 0) ∧
      (runApps stages record).1 =
        match (stages.take k).getLast? with
        | some s => (runStage s).1
        | none => 0 := by
  obtain ⟨k, h1, h2, h3, _, h5, h6⟩ := runList_spec stages record []
  exact ⟨k, h1, by rw [runApps, h3, List.nil_append], h2, h5, h6⟩

/-- C55: every stage is recorded exactly once, in order: one result for each of
its applications, under its name. Those of a stage that did not run say so. -/
theorem C55_recorded (stages : List (List App)) (record : List (List Result)) :
    ∃ tail, (runApps stages record).2.1 = record ++ tail ∧
      tail.map (·.map Result.method) = stages.map (·.map App.name) ∧
      ∀ i (h : i < tail.length),
        if i < (runApps stages record).2.2.length then
          ∃ h', tail[i] = (runStage (stages[i]'h')).2
        else ∀ r ∈ tail[i], r.state = .notRun := by
  obtain ⟨k, h1, h2, h3, h4, h5, h6⟩ := runList_spec stages record []
  refine ⟨(stages.take k).map (fun s => (runStage s).2) ++
    (stages.drop k).map (·.map (fun a => Result.placeholder a.name)), ?_, ?_, ?_⟩
  · rw [runApps, h4, List.append_assoc]
  · have hn : ∀ s : List App, ((runStage s).2).map Result.method = s.map App.name := by
      intro s
      unfold runStage
      split <;> simp [List.map_map, Function.comp_def]
    have hrw : ∀ l : List (List App), (l.map (fun s => (runStage s).2)).map (·.map Result.method)
        = l.map (·.map App.name) := by
      intro l
      induction l with
      | nil => rfl
      | cons s ss ih => simp [hn, ih]
    have hrw2 : ∀ l : List (List App),
        (l.map (·.map (fun a => Result.placeholder a.name))).map (·.map Result.method)
          = l.map (·.map App.name) := by
      intro l
      simp [List.map_map, Function.comp_def, Result.placeholder]
    rw [List.map_append, hrw, hrw2, ← List.map_append, List.take_append_drop]
  · intro i hi
    have hlen : (runApps stages record).2.2.length = k := by
      rw [runApps, h3, List.nil_append, List.length_take]; omega
    rw [hlen]
    have hl1 : ((stages.take k).map (fun s => (runStage s).2)).length = k := by
      rw [List.length_map, List.length_take]; omega
    split
    · rename_i hk
      refine ⟨by omega, ?_⟩
      rw [List.getElem_append_left (by omega)]
      simp
    · rename_i hk
      intro r hr
      rw [List.getElem_append_right (by omega)] at hr
      simp only [List.getElem_map, List.mem_map] at hr
      obtain ⟨a, _, rfl⟩ := hr
      rfl

/-- C55: an application of a stage in which none raises is recorded with the
code it returned, as passed exactly when the code is zero. -/
theorem C55_results (apps : List App) (h : ∀ a ∈ apps, a.outcome.isSome = true) :
    (runStage apps).2.length = apps.length ∧
    ∀ i (hi : i < apps.length) (hj : i < (runStage apps).2.length),
      (runStage apps).2[i].method = apps[i].name ∧
      (runStage apps).2[i].code = apps[i].outcome ∧
      ((runStage apps).2[i].state = .pass ↔ apps[i].outcome = some 0) := by
  have hall : apps.all (fun a => a.outcome.isSome) = true := by
    rw [List.all_eq_true]; exact h
  unfold runStage
  rw [if_pos hall]
  refine ⟨by simp, ?_⟩
  intro i hi hj
  have hs := h apps[i] (List.getElem_mem hi)
  obtain ⟨c, hc⟩ := Option.isSome_iff_exists.mp hs
  simp only [List.getElem_map, hc, Option.getD_some, State.fromInt, Option.some.injEq]
  refine ⟨trivial, trivial, ?_⟩
  by_cases h0 : c = 0 <;> simp [h0]

/-! ## The exit code -/

theorem foldl_add (l : List Int) (z : Int) : l.foldl (· + ·) z = z + l.sum := by
  induction l generalizing z with
  | nil => simp
  | cons x xs ih => rw [List.foldl_cons, ih, List.sum_cons]; omega

theorem sum_zero_iff (l : List Int) (h : ∀ x ∈ l, 0 ≤ x) : l.sum = 0 ↔ ∀ x ∈ l, x = 0 := by
  induction l with
  | nil => simp
  | cons x xs ih =>
    have hx := h x List.mem_cons_self
    have hxs := fun y hy => h y (List.mem_cons_of_mem _ hy)
    have hs : 0 ≤ xs.sum := by
      clear ih
      induction xs with
      | nil => simp
      | cons y ys ih2 =>
        rw [List.sum_cons]
        have := ih2 (fun z hz => by
          rcases List.mem_cons.mp hz with rfl | hz
          · exact hx
          · exact h z (List.mem_cons_of_mem _ (List.mem_cons_of_mem _ hz)))
          (fun z hz => hxs z (List.mem_cons_of_mem _ hz))
        have := hxs y List.mem_cons_self
        omega
    rw [List.sum_cons]
    constructor
    · intro hz
      have h1 : xs.sum = 0 := by omega
      intro y hy
      rcases List.mem_cons.mp hy with rfl | hy
      · omega
      · exact (ih hxs).mp h1 y hy
    · intro hz
      rw [(ih hxs).mpr (fun y hy => hz y (List.mem_cons_of_mem _ hy)), hz x List.mem_cons_self]
      rfl

/-- A stage's exit code, when no application returns a negative code, is zero
exactly when all its applications return zero. -/
theorem stage_zero_iff (apps : List App) (h : ∀ a ∈ apps, ∀ c, a.outcome = some c → 0 ≤ c) :
    (runStage apps).1 = 0 ↔ ∀ a ∈ apps, a.outcome = some 0 := by
  unfold runStage
  split
  · rename_i hall
    rw [List.all_eq_true] at hall
    dsimp only
    rw [foldl_add, Int.zero_add, sum_zero_iff]
    · constructor
      · intro hz a ha
        have := hz _ (List.mem_map.mpr ⟨a, ha, rfl⟩)
        obtain ⟨c, hc⟩ := Option.isSome_iff_exists.mp (hall a ha)
        rw [hc] at this ⊢
        simpa using this
      · intro hz x hx
        obtain ⟨a, ha, rfl⟩ := List.mem_map.mp hx
        rw [hz a ha]; rfl
    · intro x hx
      obtain ⟨a, ha, rfl⟩ := List.mem_map.mp hx
      obtain ⟨c, hc⟩ := Option.isSome_iff_exists.mp (hall a ha)
      rw [hc]
      exact h a ha c hc
  · rename_i hall
    constructor
    · intro hc
      have hc : (-1 : Int) = 0 := hc
      exact absurd hc (by decide)
    · intro hz
      exfalso
      apply hall
      rw [List.all_eq_true]
      intro a ha
      rw [hz a ha]; rfl

theorem record_pass (stages : List (List App)) (record : List (List Result)) :
    allPass (runApps stages record).2.1 = true ↔
      allPass record = true ∧ ∀ s ∈ stages, ∀ a ∈ s,
        s ∈ (runApps stages record).2.2 ∧ a.outcome = some 0 := by
  have gen : ∀ (stages : List (List App)) (record : List (List Result)) (ran : List (List App)),
      (allPass (runList stages 0 record ran).2.1 = true ↔
        allPass record = true ∧ ∀ s ∈ stages, ∀ a ∈ s, a.outcome = some 0) ∧
      ((∀ s ∈ stages, ∀ a ∈ s, a.outcome = some 0) →
        (runList stages 0 record ran).2.2 = ran ++ stages) := by
    intro stages
    induction stages with
    | nil => intro record ran; simp [runList]
    | cons s ss ih =>
      intro record ran
      have hst : (∀ a ∈ s, a.outcome = some 0) → (runStage s).1 = 0 := by
        intro h
        exact (stage_zero_iff s (fun a ha c hc => by rw [h a ha] at hc; cases hc; decide)).mpr h
      have hp : ((runStage s).2.all (fun r => r.state = .pass)) = true ↔
          ∀ a ∈ s, a.outcome = some 0 := by
        unfold runStage
        split
        · rename_i hall
          rw [List.all_eq_true] at hall
          simp only [List.all_map, List.all_eq_true, Function.comp, decide_eq_true_eq]
          constructor
          · intro h a ha
            have := h a ha
            obtain ⟨c, hc⟩ := Option.isSome_iff_exists.mp (hall a ha)
            rw [hc] at this ⊢
            by_cases h0 : c = 0
            · rw [h0]
            · simp [State.fromInt, h0] at this
          · intro h a ha
            rw [h a ha]; rfl
        · rename_i hall
          simp only [List.all_map, List.all_eq_true, Function.comp, decide_eq_true_eq]
          constructor
          · intro h a ha; exact absurd (h a ha) (by decide)
          · intro h
            exfalso
            apply hall
            rw [List.all_eq_true]
            intro a ha
            rw [h a ha]; rfl
      rw [runList, if_pos rfl]
      by_cases h0 : (runStage s).1 = 0
      · rw [h0]
        obtain ⟨i1, i2⟩ := ih (record ++ [(runStage s).2]) (ran ++ [s])
        constructor
        · rw [i1]
          have : allPass (record ++ [(runStage s).2]) = true ↔
              allPass record = true ∧ ∀ a ∈ s, a.outcome = some 0 := by
            rw [← hp]
            simp [allPass, List.all_append]
          rw [this]
          simp only [List.forall_mem_cons, and_assoc]
        · intro h
          rw [i2 (fun t ht => h t (List.mem_cons_of_mem _ ht))]
          simp
      · rw [runList_failed _ _ _ _ h0]
        have hne : ¬ ∀ a ∈ s, a.outcome = some 0 := fun h => h0 (hst h)
        constructor
        · constructor
          · intro h
            exfalso
            apply hne
            rw [← hp]
            simp only [allPass, List.all_append, Bool.and_eq_true] at h
            have := h.1.2
            simpa [List.all_cons] using this
          · rintro ⟨_, h⟩
            exact absurd (h s List.mem_cons_self) hne
        · intro h
          exact absurd (h s List.mem_cons_self) hne
  obtain ⟨g1, g2⟩ := gen stages record []
  rw [runApps, g1]
  constructor
  · rintro ⟨h1, h2⟩
    refine ⟨h1, fun s hs a ha => ⟨?_, h2 s hs a ha⟩⟩
    rw [g2 h2]
    simpa using hs
  · rintro ⟨h1, h2⟩
    exact ⟨h1, fun s hs a ha => (h2 s hs a ha).2⟩

/-- C55: the summary of the results says success exactly when every
application of every stage ran and returned zero, whatever the codes. -/
theorem C55_summary (stages : List (List App)) :
    allPass (runApps stages []).2.1 = true ↔
      ∀ s ∈ stages, ∀ a ∈ s, s ∈ (runApps stages []).2.2 ∧ a.outcome = some 0 := by
  rw [record_pass]
  simp [allPass]

/-- C55, the exit code: when no application returns a negative code, it is
zero exactly when every application of every stage returned zero. -/
theorem C55_exit_partial (stages : List (List App)) (record : List (List Result))
    (h : ∀ s ∈ stages, ∀ a ∈ s, ∀ c, a.outcome = some c → 0 ≤ c) :
    (runApps stages record).1 = 0 ↔ ∀ s ∈ stages, ∀ a ∈ s, a.outcome = some 0 := by
  have gen : ∀ (stages : List (List App)) (record : List (List Result)) (ran : List (List App)),
      (∀ s ∈ stages, ∀ a ∈ s, ∀ c, a.outcome = some c → 0 ≤ c) →
      ((runList stages 0 record ran).1 = 0 ↔ ∀ s ∈ stages, ∀ a ∈ s, a.outcome = some 0) := by
    intro stages
    induction stages with
    | nil => intro record ran _; simp [runList]
    | cons s ss ih =>
      intro record ran h
      have hz := stage_zero_iff s (h s List.mem_cons_self)
      rw [runList, if_pos rfl]
      by_cases h0 : (runStage s).1 = 0
      · rw [h0, ih _ _ (fun t ht => h t (List.mem_cons_of_mem _ ht))]
        simp only [List.forall_mem_cons]
        exact ⟨fun hs => ⟨hz.mp h0, hs⟩, fun hs => hs.2⟩
      · rw [runList_failed _ _ _ _ h0]
        simp only [List.forall_mem_cons]
        exact ⟨fun hc => absurd hc h0, fun hs => absurd (hz.mpr hs.1) h0⟩
  exact gen stages record [] h

/-- C55, the exit code is false of the code when codes cancel: a stage of two
applications that fail with opposite codes counts as a success, the stages
behind it run, and the program's exit code can be zero, although the results
say that both failed. -/
theorem C55_cancel_fails (a b : String) (c : Int) (hc : c ≠ 0) (rest : List (List App))
    (hr : ∀ s ∈ rest, ∀ x ∈ s, x.outcome = some 0) :
    (runApps ([⟨a, some c⟩, ⟨b, some (-c)⟩] :: rest) []).1 = 0 ∧
    (runApps ([⟨a, some c⟩, ⟨b, some (-c)⟩] :: rest) []).2.2
      = [⟨a, some c⟩, ⟨b, some (-c)⟩] :: rest ∧
    allPass (runApps ([⟨a, some c⟩, ⟨b, some (-c)⟩] :: rest) []).2.1 = false := by
  have h0 : (runStage [⟨a, some c⟩, ⟨b, some (-c)⟩]).1 = 0 := by
    simp [runStage]; omega
  have hstep : ∀ rec, runApps ([⟨a, some c⟩, ⟨b, some (-c)⟩] :: rest) rec =
      runList rest 0 (rec ++ [(runStage [⟨a, some c⟩, ⟨b, some (-c)⟩]).2])
        ([] ++ [[⟨a, some c⟩, ⟨b, some (-c)⟩]]) := by
    intro rec
    rw [runApps, runList, if_pos rfl, h0]
  refine ⟨?_, ?_, ?_⟩
  · rw [hstep]
    have hrun := (C55_exit_partial rest
      ([] ++ [(runStage [⟨a, some c⟩, ⟨b, some (-c)⟩]).2]) (fun s hs x hx d hd => by
        rw [hr s hs x hx] at hd; cases hd; decide)).mpr hr
    have hfree : ∀ (stages : List (List App)) (z : Int) (rec : List (List Result))
        (ran ran' : List (List App)),
        (runList stages z rec ran).1 = (runList stages z rec ran').1 := by
      intro stages
      induction stages with
      | nil => intro z rec ran ran'; rfl
      | cons s ss ih =>
        intro z rec ran ran'
        rw [runList, runList]
        split
        · exact ih _ _ _ _
        · exact ih _ _ _ _
    rw [hfree rest 0 _ _ []]
    exact hrun
  · rw [hstep]
    have hfull : ∀ (stages : List (List App)) (rec : List (List Result)) (ran : List (List App)),
        (∀ s ∈ stages, ∀ x ∈ s, x.outcome = some 0) →
        (runList stages 0 rec ran).2.2 = ran ++ stages := by
      intro stages
      induction stages with
      | nil => intro rec ran _; simp [runList]
      | cons s ss ih =>
        intro rec ran h
        have hs : (runStage s).1 = 0 :=
          (stage_zero_iff s (fun x hx d hd => by
            rw [h s List.mem_cons_self x hx] at hd; cases hd; decide)).mpr (h s List.mem_cons_self)
        rw [runList, if_pos rfl, hs, ih _ _ (fun t ht => h t (List.mem_cons_of_mem _ ht))]
        simp
    rw [hfull rest _ _ hr]
    rfl
  · rw [Bool.eq_false_iff]
    intro h
    have := (C55_summary _).mp h [⟨a, some c⟩, ⟨b, some (-c)⟩] List.mem_cons_self
      ⟨a, some c⟩ List.mem_cons_self
    have := this.2
    simp at this
    exact hc this

/-- C55: when one application of a stage raises, every application of the
stage is recorded as having raised, those that returned zero too. -/
theorem C55_blame_fails (apps : List App) (h : ∃ a ∈ apps, a.outcome = none) :
    (runStage apps).1 = -1 ∧
    ∀ r ∈ (runStage apps).2, r.state = .exception ∧ r.code = none := by
  have : apps.all (fun a => a.outcome.isSome) ≠ true := by
    obtain ⟨a, ha, hn⟩ := h
    intro hall
    rw [List.all_eq_true] at hall
    have := hall a ha
    rw [hn] at this; cases this
  unfold runStage
  rw [if_neg this]
  refine ⟨rfl, ?_⟩
  intro r hr
  obtain ⟨a, _, rfl⟩ := List.mem_map.mp hr
  exact ⟨rfl, rfl⟩

/-! ## The whole program -/

/-- C55: with a disabled connection and the check on, no application runs and
the exit code is -1. -/
theorem C55_check (disabled : List Bool) (inits apps : List (List App)) (h : true ∈ disabled) :
    main true disabled inits apps = (-1, none, []) := by
  have : disabled.any id = true := by
    rw [List.any_eq_true]; exact ⟨true, h, rfl⟩
  simp [main, this]

/-- C55: the applications run only after every initialisation stage ran with
the exit code zero; then the exit code is theirs. Otherwise it is that of the
initialisation. -/
theorem C55_main (disabled : List Bool) (inits apps : List (List App))
    (h : true ∉ disabled) (check : Bool) :
    ((runApps inits []).1 = 0 →
      (main check disabled inits apps).1 = (runApps apps (runApps inits []).2.1).1 ∧
      ∃ ran, (main check disabled inits apps).2.2 = inits ++ ran ∧ ran <+: apps) ∧
    ((runApps inits []).1 ≠ 0 →
      (main check disabled inits apps).1 = (runApps inits []).1 ∧
      (main check disabled inits apps).2.2 <+: inits) := by
  have hn : disabled.any id = false := by
    rw [Bool.eq_false_iff]
    intro ha
    obtain ⟨x, hx, hx'⟩ := List.any_eq_true.mp ha
    have : x = true := hx'
    exact h (this ▸ hx)
  have hc : (!check || !disabled.any id) = true := by rw [hn]; simp
  unfold main
  rw [if_pos hc]
  constructor
  · intro h0
    dsimp only
    rw [if_pos h0]
    refine ⟨rfl, (runApps apps (runApps inits []).2.1).2.2, ?_, ?_⟩
    · obtain ⟨k, h1, h2, h3, h4, h5⟩ := C55_order inits []
      have hk : ¬ k < inits.length := fun hk => h4 hk h0
      have : inits.take k = inits := List.take_of_length_le (by omega)
      dsimp only
      rw [h2, this]
    · obtain ⟨k, _, h2, _⟩ := C55_order apps (runApps inits []).2.1
      rw [h2]
      exact List.take_prefix _ _
  · intro h0
    dsimp only
    rw [if_neg h0]
    refine ⟨rfl, ?_⟩
    obtain ⟨k, _, h2, _⟩ := C55_order inits []
    dsimp only
    rw [h2]
    exact List.take_prefix _ _

/-- C55: when the initialisation fails, the application stages are not
recorded at all, not even as not run. -/
theorem C55_unrecorded_fails (disabled : List Bool) (inits apps : List (List App))
    (h : true ∉ disabled) (h0 : (runApps inits []).1 ≠ 0) :
    (main true disabled inits apps).2.1 = some (runApps inits []).2.1 ∧
    (runApps inits []).2.1.length = inits.length := by
  have hn : disabled.any id = false := by
    rw [Bool.eq_false_iff]
    intro ha
    obtain ⟨x, hx, hx'⟩ := List.any_eq_true.mp ha
    have : x = true := hx'
    exact h (this ▸ hx)
  constructor
  · simp [main, hn, h0]
  · obtain ⟨tail, h1, h2, _⟩ := C55_recorded inits []
    rw [h1, List.nil_append]
    have := congrArg List.length h2
    simpa using this

/-- Two stages, the second of which fails, and a third that does not run. -/
example : runApps [[⟨"a", some 0⟩, ⟨"b", some 0⟩], [⟨"c", some 2⟩], [⟨"d", some 0⟩]] [] =
    (2, [[⟨"a", .pass, some 0⟩, ⟨"b", .pass, some 0⟩], [⟨"c", .fail, some 2⟩],
         [⟨"d", .notRun, none⟩]],
     [[⟨"a", some 0⟩, ⟨"b", some 0⟩], [⟨"c", some 2⟩]]) := by
  rfl

end Verif.Arbiter
