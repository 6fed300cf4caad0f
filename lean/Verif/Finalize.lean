import Verif.Base

/-!
# Finalisation (C60)

`FinalizeMixin` of `mixins/finalize.py` 11-55. A program that uses the object
is a list of actions; a bypass context is an action with a body. Actions that
raise end the program unless it catches the exception.
-/

namespace Verif.Finalize

/-- `_finalized` and `_finalized_bypass` (`finalize.py` 14-20). -/
structure Obj where
  event : Bool
  bypass : Bool
deriving DecidableEq

/-- The property `finalized` (`finalize.py` 26-30). -/
def Obj.finalized (o : Obj) : Bool := if o.bypass then false else o.event

/-- `finalize` (`finalize.py` 32-38). -/
def Obj.finalize (o : Obj) (strict : Bool) : Except PyErr Obj :=
  if strict && o.finalized then .error .assertion else .ok ⟨true, o.bypass⟩

/-- What a program does with the object. -/
inductive Act where
  | finalize (strict : Bool)
  /-- `with obj.bypass_finalized(): body` -/
  | bypass (body : List Act)
  /-- something else raises -/
  | fail (e : PyErr)
  /-- `try: body except …: pass` -/
  | guarded (body : List Act)
  /-- the property is looked at -/
  | look

/-- A run of a program: the object afterwards, what was seen of `finalized`
and of the flag at each look (with the number of bypass contexts around it),
and the exception, if one comes out. -/
structure Done where
  obj : Obj
  seen : List (Bool × Nat)
  raised : Option PyErr

mutual

/-- One action (`finalize.py` 32-55), inside `depth` bypass contexts. -/
def runAct (depth : Nat) (o : Obj) : Act → Done
  | .finalize strict =>
    match o.finalize strict with
    | .ok o' => ⟨o', [], none⟩
    | .error e => ⟨o, [], some e⟩
  | .bypass body =>
    -- line 49, outside the `try`
    if o.bypass then ⟨o, [], some .assertion⟩
    else
      let d := runActs (depth + 1) ⟨o.event, true⟩ body
      -- lines 54-55
      ⟨⟨d.obj.event, false⟩, d.seen, d.raised⟩
  | .fail e => ⟨o, [], some e⟩
  | .guarded body =>
    let d := runActs depth o body
    ⟨d.obj, d.seen, none⟩
  | .look => ⟨o, [(o.finalized, depth)], none⟩

/-- A list of actions: the first exception ends it. -/
def runActs (depth : Nat) (o : Obj) : List Act → Done
  | [] => ⟨o, [], none⟩
  | a :: rest =>
    let d := runAct depth o a
    match d.raised with
    | some e => ⟨d.obj, d.seen, some e⟩
    | none =>
      let d' := runActs depth d.obj rest
      ⟨d'.obj, d.seen ++ d'.seen, d'.raised⟩

end

/-- What every run keeps: the flag is back to what it was, the event is never
cleared, and what is seen. -/
structure Kept (depth : Nat) (o : Obj) (d : Done) : Prop where
  bypass : d.obj.bypass = o.bypass
  event : o.event = true → d.obj.event = true
  inside : ∀ p ∈ d.seen, p.2 ≠ 0 → p.1 = false
  outside : ∀ p ∈ d.seen, p.2 = 0 → o.event = true → p.1 = true
  deep : ∀ p ∈ d.seen, depth ≤ p.2 ∧ p.2 ≤ 1

mutual

theorem runAct_kept (depth : Nat) (o : Obj) (a : Act) (hd : depth ≤ 1)
    (hb : o.bypass = decide (depth ≠ 0)) : Kept depth o (runAct depth o a) := by
  cases a with
  | finalize strict =>
    simp only [runAct, Obj.finalize]
    split
    · rename_i o' h
      split at h
      · cases h
      · injection h with h
        subst h
        exact ⟨rfl, fun _ => rfl, fun p hp => (by cases hp), fun p hp => (by cases hp),
          fun p hp => (by cases hp)⟩
    · exact ⟨rfl, fun h => h, fun p hp => (by cases hp), fun p hp => (by cases hp),
        fun p hp => (by cases hp)⟩
  | bypass body =>
    simp only [runAct]
    split
    · exact ⟨rfl, fun h => h, fun p hp => (by cases hp), fun p hp => (by cases hp),
        fun p hp => (by cases hp)⟩
    · rename_i hb'
      have hb0 : o.bypass = false := by simpa using hb'
      have hd0 : depth = 0 := by
        rw [hb0] at hb
        have := hb.symm
        simpa using this
      subst hd0
      have ih := runActs_kept 1 ⟨o.event, true⟩ body (Nat.le_refl _) rfl
      refine ⟨hb0.symm, ih.event, ih.inside, ?_, fun p hp => ⟨Nat.zero_le _, (ih.deep p hp).2⟩⟩
      intro p hp h0
      have := (ih.deep p hp).1
      omega
  | fail e =>
    exact ⟨rfl, fun h => h, fun p hp => (by cases hp), fun p hp => (by cases hp),
      fun p hp => (by cases hp)⟩
  | guarded body =>
    have ih := runActs_kept depth o body hd hb
    simp only [runAct]
    exact ⟨ih.bypass, ih.event, ih.inside, ih.outside, ih.deep⟩
  | look =>
    simp only [runAct]
    refine ⟨rfl, fun h => h, ?_, ?_, ?_⟩
    · intro p hp h0
      rw [List.mem_singleton] at hp
      subst hp
      have : o.bypass = true := by rw [hb]; simpa using h0
      simp [Obj.finalized, this]
    · intro p hp h0 he
      rw [List.mem_singleton] at hp
      subst hp
      have h0 : depth = 0 := h0
      have : o.bypass = false := by rw [hb, h0]; rfl
      simp [Obj.finalized, this, he]
    · intro p hp
      rw [List.mem_singleton] at hp
      subst hp
      exact ⟨Nat.le_refl _, hd⟩

theorem runActs_kept (depth : Nat) (o : Obj) (acts : List Act) (hd : depth ≤ 1)
    (hb : o.bypass = decide (depth ≠ 0)) : Kept depth o (runActs depth o acts) := by
  cases acts with
  | nil =>
    simp only [runActs]
    exact ⟨rfl, fun h => h, fun p hp => (by cases hp), fun p hp => (by cases hp),
      fun p hp => (by cases hp)⟩
  | cons a rest =>
    have h1 := runAct_kept depth o a hd hb
    simp only [runActs]
    split
    · exact ⟨h1.bypass, h1.event, h1.inside, h1.outside, h1.deep⟩
    · have h2 := runActs_kept depth (runAct depth o a).obj rest hd (by rw [h1.bypass]; exact hb)
      refine ⟨by rw [h2.bypass, h1.bypass], fun h => h2.event (h1.event h), ?_, ?_, ?_⟩
      · intro p hp
        rcases List.mem_append.mp hp with hp | hp
        · exact h1.inside p hp
        · exact h2.inside p hp
      · intro p hp h0 he
        rcases List.mem_append.mp hp with hp | hp
        · exact h1.outside p hp h0 he
        · exact h2.outside p hp h0 (h1.event he)
      · intro p hp
        rcases List.mem_append.mp hp with hp | hp
        · exact h1.deep p hp
        · exact h2.deep p hp

end

/-- C60: once finalised, an object stays finalised: whatever a program does,
with failures inside and outside of bypass contexts, every look outside of
them sees it finalised, and so does whoever looks afterwards. -/
theorem C60_one_way (acts : List Act) (d : Done) (h : d = runActs 0 ⟨true, false⟩ acts) :
    d.obj.finalized = true ∧ ∀ p ∈ d.seen, p.2 = 0 → p.1 = true := by
  subst h
  have hk := runActs_kept 0 ⟨true, false⟩ acts (Nat.zero_le _) rfl
  refine ⟨?_, fun p hp h0 => hk.outside p hp h0 rfl⟩
  rw [Obj.finalized, hk.bypass, hk.event rfl]
  rfl

/-- C60: a bypass ends with its context, whether or not the body fails: after
every program, and after every single bypass, the bypass flag is clear. -/
theorem C60_bypass_ends (o : Obj) (ho : o.bypass = false) (acts : List Act) :
    (runActs 0 o acts).obj.bypass = false ∧
    ∀ body, (runAct 0 o (.bypass body)).obj.bypass = false := by
  constructor
  · have := (runActs_kept 0 o acts (Nat.zero_le _) (by rw [ho]; rfl)).bypass
    rw [this, ho]
  · intro body
    have := (runAct_kept 0 o (.bypass body) (Nat.zero_le _) (by rw [ho]; rfl)).bypass
    rw [this, ho]

/-- C60: inside a bypass every look sees the object as not finalised, and
bypasses are at most one deep. -/
theorem C60_bypass_hides (o : Obj) (ho : o.bypass = false) (acts : List Act) :
    ∀ p ∈ (runActs 0 o acts).seen, p.2 ≤ 1 ∧ (p.2 = 1 → p.1 = false) := by
  intro p hp
  have hk := runActs_kept 0 o acts (Nat.zero_le _) (by rw [ho]; rfl)
  exact ⟨(hk.deep p hp).2, fun h1 => hk.inside p hp (by omega)⟩

/-- C60: a bypass inside a bypass is refused, its body does not run, and the
outer one still holds afterwards. -/
theorem C60_no_nesting (depth : Nat) (o : Obj) (ho : o.bypass = true) (body : List Act) :
    runAct depth o (.bypass body) = ⟨o, [], some .assertion⟩ := by
  rw [runAct, if_pos ho]

/-- C60: a strict finalisation of a finalised object outside of a bypass is
refused and changes nothing; any other finalisation succeeds. -/
theorem C60_strict (o : Obj) (ho : o.bypass = false) (strict : Bool) :
    runAct 0 o (.finalize strict) =
      if strict = true ∧ o.event = true then ⟨o, [], some .assertion⟩
      else ⟨⟨true, false⟩, [], none⟩ := by
  obtain ⟨e, b⟩ := o
  simp only at ho
  subst ho
  cases strict <;> cases e <;> simp [runAct, Obj.finalize, Obj.finalized]

/-- C60, the refusal of a strict second finalisation is false of the code
inside a bypass: there it succeeds on a finalised object. -/
theorem C60_strict_fails (o : Obj) (ho : o.bypass = false) (he : o.event = true) :
    runAct 0 o (.bypass [.finalize true]) = ⟨o, [], none⟩ := by
  obtain ⟨e, b⟩ := o
  simp only at ho he
  subst ho he
  simp [runAct, runActs, Obj.finalize, Obj.finalized]

theorem runActs_before (depth : Nat) (o : Obj) (before : List Act) (e : PyErr) (after : List Act)
    (hb : (runActs depth o before).raised = none) :
    runActs depth o (before ++ .fail e :: after) =
      ⟨(runActs depth o before).obj, (runActs depth o before).seen, some e⟩ := by
  induction before generalizing o with
  | nil => simp [runActs, runAct]
  | cons a rest ih =>
    rw [List.cons_append, runActs]
    rw [runActs] at hb ⊢
    cases hr : (runAct depth o a).raised with
    | some x => simp [hr] at hb
    | none =>
      simp only [hr] at hb ⊢
      rw [ih _ hb]

/-- C60: an exception inside a bypass comes out of it as it is, after the flag has been cleared, and nothing behind it
runs; outside of one it does the same. -/
theorem C60_exceptions (o : Obj) (ho : o.bypass = false) (before : List Act) (e : PyErr) (after : List Act) :
    ((runActs 1 ⟨o.event, true⟩ before).raised = none →
      (runAct 0 o (.bypass (before ++ .fail e :: after))).raised = some e ∧
      (runAct 0 o (.bypass (before ++ .fail e :: after))).obj.bypass = false ∧
      (runAct 0 o (.bypass (before ++ .fail e :: after))).seen = (runActs 1 ⟨o.event, true⟩ before).seen) ∧
    ((runActs 0 o before).raised = none →
      (runActs 0 o (before ++ .fail e :: after)).raised = some e ∧
      (runActs 0 o (before ++ .fail e :: after)).seen = (runActs 0 o before).seen) := by
  refine ⟨fun hb => ?_, fun hb => ?_⟩
  · rw [runAct, if_neg (by rw [ho]; decide), Nat.zero_add, runActs_before _ _ _ _ _ hb]
    exact ⟨rfl, rfl, rfl⟩
  · rw [runActs_before _ _ _ _ _ hb]
    exact ⟨rfl, rfl⟩

/-- C60: after any program that contains a finalisation that is reached and
does not raise, the object is finalised. -/
theorem C60_finalises (depth : Nat) (o : Obj) (strict : Bool)
    (h : (runAct depth o (.finalize strict)).raised = none) :
    (runAct depth o (.finalize strict)).obj.event = true := by
  unfold runAct Obj.finalize at h ⊢
  by_cases hc : (strict && o.finalized) = true
  · rw [if_pos hc] at h
    cases h
  · rw [if_neg hc]

/-- A program with a failure inside a bypass, caught outside. -/
example : runActs 0 ⟨false, false⟩
    [.finalize true, .look, .guarded [.bypass [.look, .fail .value]], .look,
     .guarded [.finalize true]]
    = ⟨⟨true, false⟩, [(true, 0), (false, 1), (true, 0)], none⟩ := by
  rfl

end Verif.Finalize
