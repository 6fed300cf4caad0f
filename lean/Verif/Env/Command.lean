import Verif.Env.Snapshot
/-!
C37: commands.
-/
namespace Verif.Environment

open Verif.Wire Verif.Registry

variable {H : Type}

theorem set_error_or (sem : Sem) (E : Env) (σ : State) (a : Args) :
    ((doSet sem E σ a).1 = σ ∧ (∀ v, (doSet sem E σ a).2 ≠ .ok (.success v)))
    ∨ (∃ s rest, a.extra = s :: rest ∧ E.set sem σ (.name a.channel) (.str s) true
          = .ok (doSet sem E σ a).1 ∧ (doSet sem E σ a).2 = .ok (.success none)) := by
  unfold doSet
  cases he : a.extra with
  | nil => left; simp
  | cons s rest =>
    simp only
    cases hs : E.set sem σ (.name a.channel) (.str s) true with
    | ok σ' => right; exact ⟨s, rest, rfl, hs, rfl⟩
    | error e => left; cases e <;> simp

/-- C37. A state can change only through a local set or toggle command on an existing channel or
field that is commandable or forced. -/
theorem C37_change_allowed (sem : Sem) (E : Env) (hooks : List H) (σ : State) (a : Args)
    (h : (handle sem E hooks σ a).1 ≠ σ) :
    a.remote = false ∧ (a.command = .set ∨ a.command = .toggle)
    ∧ ∃ t, E.fieldOrChannel (.name a.channel) = some t ∧ (t.commandable = true ∨ a.force = true) := by
  unfold handle at h
  split at h
  · exact absurd rfl h
  · rename_i hr
    simp only [Bool.or_eq_true, not_or, Bool.not_eq_true, beq_eq_false_iff_ne] at hr
    split at h
    · exact absurd rfl h
    · cases ht : E.fieldOrChannel (.name a.channel) with
      | none => rw [ht] at h; exact absurd rfl h
      | some t =>
        rw [ht] at h
        simp only at h
        split at h
        · exact absurd rfl h
        · rename_i hc
          have hc' : t.commandable = true ∨ a.force = true := by
            cases h1 : t.commandable <;> cases h2 : a.force <;> simp [h1, h2] at hc ⊢
          refine ⟨hr.1, ?_, t, rfl, hc'⟩
          cases hcmd : a.command with
          | set => left; rfl
          | toggle => right; rfl
          | get => rw [hcmd] at h; exact absurd rfl h
          | custom => exact absurd hcmd hr.2

/-- C37. A command on a missing channel, or on one that is not commandable without force, is
refused: a failing result, no change and no hook. (Reading is not refused.) -/
theorem C37_refused (sem : Sem) (E : Env) (hooks : List H) (σ : State) (a : Args)
    (hl : a.remote = false) (hcmd : a.command = .set ∨ a.command = .toggle)
    (h : ∀ t, E.fieldOrChannel (.name a.channel) = some t → t.commandable = false ∧ a.force = false) :
    ∃ r, handle sem E hooks σ a = (σ, [], .ok r) ∧ r.good = false := by
  have h1 : (a.remote || a.command == .custom) = false := by
    rcases hcmd with hc | hc <;> rw [hl, hc] <;> rfl
  have h2 : ¬ (a.command = .get ∧ E.exists (.name a.channel) = true) := by
    rcases hcmd with hc | hc <;> rw [hc] <;> simp
  unfold handle
  rw [h1, if_neg (by decide), if_neg h2]
  cases ht : E.fieldOrChannel (.name a.channel) with
  | none => exact ⟨.noChannel, rfl, rfl⟩
  | some t =>
    obtain ⟨h3, h4⟩ := h t ht
    exact ⟨.notCommandable, by simp [h3, h4], rfl⟩

/-- C37. Any command that does not succeed (a failing result or an exception) changes nothing and
runs no hook. -/
theorem C37_failure (sem : Sem) (E : Env) (hooks : List H) (σ : State) (a : Args)
    (h : ∀ v, (handle sem E hooks σ a).2.2 ≠ .ok (.success v)) :
    (handle sem E hooks σ a).1 = σ ∧ (handle sem E hooks σ a).2.1 = [] := by
  unfold handle at h ⊢
  split
  · rename_i hr
    rw [if_pos hr] at h
    exact absurd rfl (h none)
  · rename_i hr
    rw [if_neg hr] at h
    split
    · exact ⟨rfl, rfl⟩
    · rename_i hg
      rw [if_neg hg] at h
      cases ht : E.fieldOrChannel (.name a.channel) with
      | none => exact ⟨rfl, rfl⟩
      | some t =>
        rw [ht] at h
        simp only at h ⊢
        split
        · exact ⟨rfl, rfl⟩
        · rename_i hc
          rw [if_neg hc] at h
          cases hcmd : a.command with
          | custom => simp [hcmd] at hr
          | get => rw [hcmd] at h; exact absurd rfl (h none)
          | set =>
            rw [hcmd] at h
            simp only at h ⊢
            rcases set_error_or sem E σ a with ⟨h1, h2⟩ | ⟨_, _, _, _, h2⟩
            · cases hres : (doSet sem E σ a).2 with
              | error e => exact ⟨h1, rfl⟩
              | ok res =>
                refine ⟨h1, ?_⟩
                cases res with
                | success v => exact absurd hres (h2 v)
                | _ => rfl
            · rw [h2] at h; exact absurd rfl (h none)
          | toggle =>
            rw [hcmd] at h
            simp only at h ⊢
            cases t with
            | field f => exact absurd rfl (h none)
            | chan c =>
              simp only [doToggle] at h ⊢
              by_cases hk : (E.prim c.slot).kind = .bool
              · simp only [hk, if_true] at h ⊢
                cases hv : σ c.slot with
                | bool b => rw [hv] at h; exact absurd rfl (h none)
                | int v => exact ⟨rfl, rfl⟩
                | num v => exact ⟨rfl, rfl⟩
              · simp [hk, Res.good]

/-- C37. A local set or toggle command that succeeds runs every hook exactly once, in order, with the
channel or field found, and its effect is that of setting the given text, or of toggling. -/
theorem C37_success (sem : Sem) (E : Env) (hooks : List H) (σ : State) (a : Args) (hl : a.remote = false)
    (hcmd : a.command = .set ∨ a.command = .toggle) (v : Option CV)
    (h : (handle sem E hooks σ a).2.2 = .ok (.success v)) :
    ∃ t, E.fieldOrChannel (.name a.channel) = some t
      ∧ (handle sem E hooks σ a).2.1 = hooks.map (fun x => ⟨x, some t⟩)
      ∧ (a.command = .set → ∃ s rest, a.extra = s :: rest ∧
          E.set sem σ (.name a.channel) (.str s) true = .ok (handle sem E hooks σ a).1)
      ∧ (a.command = .toggle → (handle sem E hooks σ a).1 = (doToggle E σ t).1) := by
  have h1 : (a.remote || a.command == .custom) = false := by
    rcases hcmd with hc | hc <;> rw [hl, hc] <;> rfl
  have h2 : ¬ (a.command = .get ∧ E.exists (.name a.channel) = true) := by
    rcases hcmd with hc | hc <;> rw [hc] <;> simp
  unfold handle at h ⊢
  rw [h1, if_neg (by decide), if_neg h2] at h ⊢
  cases ht : E.fieldOrChannel (.name a.channel) with
  | none => rw [ht] at h; cases h
  | some t =>
    rw [ht] at h
    simp only at h ⊢
    split at h
    · cases h
    · rename_i hc
      rw [if_neg hc]
      refine ⟨t, rfl, ?_⟩
      rcases hcmd with hcmd | hcmd
      · simp only [hcmd] at h ⊢
        rcases set_error_or sem E σ a with ⟨_, h4⟩ | ⟨s, rest, he, hs, h4⟩
        · cases hres : (doSet sem E σ a).2 with
          | error e => rw [hres] at h; cases h
          | ok res =>
            rw [hres] at h
            simp only [Except.ok.injEq] at h
            exact absurd (by rw [hres, h]) (h4 v)
        · rw [h4]
          exact ⟨by simp [Res.good], fun _ => ⟨s, rest, he, hs⟩, fun h => (by cases h)⟩
      · simp only [hcmd] at h ⊢
        cases hres : (doToggle E σ t).2 with
        | error e => rw [hres] at h; cases h
        | ok res =>
          rw [hres] at h
          simp only [Except.ok.injEq] at h
          subst h
          exact ⟨by simp [Res.good], fun h => (by cases h), fun _ => rfl⟩

/-- C37. A local set or toggle command on a channel or field that is commandable, or with the force
flag, is carried out: the outcome is exactly that of setting the text or of toggling. -/
theorem C37_permitted (sem : Sem) (E : Env) (hooks : List H) (σ : State) (a : Args) (hl : a.remote = false)
    (t : Target) (ht : E.fieldOrChannel (.name a.channel) = some t)
    (hp : t.commandable = true ∨ a.force = true) :
    (∀ s rest σ', a.command = .set → a.extra = s :: rest →
      E.set sem σ (.name a.channel) (.str s) true = .ok σ' →
      handle sem E hooks σ a = (σ', hooks.map (fun x => ⟨x, some t⟩), .ok (.success none)))
    ∧ (a.command = .toggle → (handle sem E hooks σ a).1 = (doToggle E σ t).1
        ∧ (handle sem E hooks σ a).2.2 = (doToggle E σ t).2) := by
  have hc : ¬ ((!t.commandable && !a.force) = true) := by
    rcases hp with h | h <;> simp [h]
  constructor
  · intro s rest σ' hcmd he hs
    have h1 : (a.remote || a.command == .custom) = false := by rw [hl, hcmd]; rfl
    have h2 : ¬ (a.command = .get ∧ E.exists (.name a.channel) = true) := by rw [hcmd]; simp
    unfold handle
    rw [h1, if_neg (by decide), if_neg h2, ht]
    simp only
    rw [if_neg hc]
    simp [hcmd, doSet, he, hs, Res.good]
  · intro hcmd
    have h1 : (a.remote || a.command == .custom) = false := by rw [hl, hcmd]; rfl
    have h2 : ¬ (a.command = .get ∧ E.exists (.name a.channel) = true) := by rw [hcmd]; simp
    unfold handle
    rw [h1, if_neg (by decide), if_neg h2, ht]
    simp only
    rw [if_neg hc]
    simp only [hcmd]
    cases (doToggle E σ t).2 <;> exact ⟨rfl, rfl⟩

/-- C37. A remote or custom command changes nothing locally and hands the command to every hook
once. The processor of a remote environment treats every command that way. -/
theorem C37_remote (sem : Sem) (E : Env) (hooks : List H) (σ : State) (a : Args) :
    (a.remote = true ∨ a.command = .custom →
      handle sem E hooks σ a = (σ, hooks.map (fun h => ⟨h, none⟩), .ok (.success none)))
    ∧ handleRemote sem E hooks σ a = (σ, hooks.map (fun h => ⟨h, none⟩), .ok (.success none)) := by
  constructor
  · intro h
    have h1 : (a.remote || a.command == .custom) = true := by
      rcases h with h | h <;> simp [h]
    unfold handle
    rw [if_pos h1]
  · unfold handleRemote handle
    simp

/-- C37. Reading changes nothing and runs no hook. -/
theorem C37_get (sem : Sem) (E : Env) (hooks : List H) (σ : State) (a : Args) (hl : a.remote = false)
    (hcmd : a.command = .get) :
    (handle sem E hooks σ a).1 = σ
    ∧ (E.exists (.name a.channel) = true → (handle sem E hooks σ a).2.1 = [] ∧
        (handle sem E hooks σ a).2.2
          = (E.value σ (.name a.channel) true true).map (fun v => .success (some v)))
    ∧ (E.exists (.name a.channel) = false → (handle sem E hooks σ a).2 = ([], .ok .noChannel)) := by
  have h1 : (a.remote || a.command == .custom) = false := by rw [hl, hcmd]; rfl
  unfold handle
  rw [h1, if_neg (by decide)]
  by_cases he : E.exists (.name a.channel) = true
  · rw [if_pos ⟨hcmd, he⟩]
    exact ⟨rfl, fun _ => ⟨rfl, rfl⟩, fun h => by rw [he] at h; cases h⟩
  · rw [if_neg (fun h => he h.2)]
    have ht : E.fieldOrChannel (.name a.channel) = none := by
      simp only [Env.exists, Env.hasField, Bool.or_eq_true, not_or, Bool.not_eq_true,
        Option.isSome_eq_false_iff, Option.isNone_iff_eq_none] at he
      simp [Env.fieldOrChannel, he.1, he.2]
    rw [ht]
    exact ⟨rfl, fun h => absurd h he, fun _ => rfl⟩

/-- C37. What a toggle does: a boolean channel flips and nothing else changes; any other channel is
refused; a field is complemented (C12) and nothing else of its primitive changes. -/
theorem C37_toggle (sem : Sem) (E : Env) (hE : Spec.WF E) (σ : State) (hσ : Spec.Typed sem E σ)
    (key : Key Int) (t : Target) (ht : E.target key = some t) :
    (∀ j, (∀ b, ¬ Spec.Owns t j b) → (doToggle E σ t).1 j = σ j)
    ∧ (match t with
      | .chan c => ((E.prim c.slot).kind = .bool → ∃ b, σ c.slot = .bool b ∧
          (doToggle E σ t).1 c.slot = .bool (!b) ∧ (doToggle E σ t).2 = .ok (.success none))
        ∧ ((E.prim c.slot).kind ≠ .bool → doToggle E σ t = (σ, .ok .notBoolean))
      | .field f => (doToggle E σ t).2 = .ok (.success none) ∧
          Bits.readField ((doToggle E σ t).1 f.slot).raw f.index f.width
            = 2 ^ f.width - 1 - Bits.readField (σ f.slot).raw f.index f.width) := by
  cases t with
  | chan c =>
    simp only [doToggle, Spec.Owns]
    by_cases hk : (E.prim c.slot).kind = .bool
    · have hv := hσ c.slot
      rw [hk] at hv
      cases hb : σ c.slot with
      | int v => rw [hb] at hv; exact absurd hv id
      | num v => rw [hb] at hv; exact absurd hv id
      | bool b =>
        simp only [hk, if_true]
        refine ⟨fun j hj => put_ne _ _ (fun e => hj 0 e), fun _ => ⟨b, rfl, put_self _ _ _, (by trivial)⟩,
          fun h => absurd (by trivial) h⟩
    · simp only [hk, if_false]
      exact ⟨fun _ _ => by trivial, fun h => absurd h id, fun _ => (by trivial)⟩
  | field f =>
    obtain ⟨k, hk, hin⟩ := WF.field hE ht
    obtain ⟨x, hx, hr⟩ := typed_int hσ hk
    simp only [doToggle, Spec.Owns]
    refine ⟨?_, by trivial, ?_⟩
    · intro j hj
      by_cases e : j = f.slot
      · subst e
        have hw : f.width = 0 := by
          by_contra hne
          exact hj f.index ⟨rfl, by constructor <;> omega⟩
        rw [put_self, hk, hx]
        simp only [raw_int, SKind.intKind, PV.int.injEq, Bits.invertField]
        apply write_same k x _ _ _ hin x hr (fun _ _ _ => Iff.rfl)
        intro j hj; omega
      · exact put_ne _ _ e
    · rw [put_self, raw_int, hk, hx]
      exact (Bits.C12_invert k x f.index f.width hin ((packable_iff k x).mpr hr)).2.1

/-- C37. A command line that does not parse changes nothing and runs no hook; one that does is handled
as above. -/
theorem C37_line (sem : Sem) (parse : String → Option Args) (E : Env) (hooks : List H) (σ : State)
    (line : String) :
    (parse line = none → command sem parse E hooks σ line = (σ, [], .ok none))
    ∧ (∀ a, parse line = some a → (command sem parse E hooks σ line).1 = (handle sem E hooks σ a).1
        ∧ (command sem parse E hooks σ line).2.1 = (handle sem E hooks σ a).2.1) := by
  constructor
  · intro h; simp [command, h]
  · intro a h; simp [command, h]

/-- C37. When the name is not both a channel and a field, a command changes storage only of the
channel or field whose flag was checked. Missing: names that are both, see
`C37_shadowed_fails`. -/
theorem C37_only_target_partial (sem : Sem) (E : Env) (hE : Spec.WF E) (hooks : List H) (σ : State)
    (hσ : Spec.Typed sem E σ) (a : Args) (hns : dget E.fields a.channel = none ∨ dget E.chans a.channel = none)
    (t : Target) (ht : E.fieldOrChannel (.name a.channel) = some t)
    (key' : Key Int) (t' : Target) (ht' : E.target key' = some t') (hd : Spec.Apart t t') (r s : Bool) :
    E.value (handle sem E hooks σ a).1 key' r s = E.value σ key' r s := by
  have hsame : E.target (.name a.channel) = some t := by
    rw [← ht]
    unfold Env.target Env.fieldOrChannel Env.getField Env.getChan
    cases hn : E.names.nameOf (.name a.channel) with
    | none => rfl
    | some n =>
      have hn' : n = a.channel := by
        simp only [Mapping.nameOf] at hn
        split at hn
        · simpa using hn.symm
        · cases hn
      subst hn'
      rcases hns with h | h
      · simp only [Option.bind_some, h]
        cases dget E.chans a.channel <;> rfl
      · simp only [Option.bind_some, h]
        cases dget E.fields a.channel <;> rfl
  by_cases hsucc : ∃ v, (handle sem E hooks σ a).2.2 = .ok (.success v)
  · by_cases hch : (handle sem E hooks σ a).1 = σ
    · rw [hch]
    · obtain ⟨hl, hcmd, -⟩ := C37_change_allowed sem E hooks σ a hch
      obtain ⟨v, hv⟩ := hsucc
      obtain ⟨t1, ht1, -, hset, htog⟩ := C37_success sem E hooks σ a hl hcmd v hv
      rw [ht] at ht1
      cases ht1
      rcases hcmd with hc | hc
      · obtain ⟨x, rest, -, hx⟩ := hset hc
        exact C35_frame sem E hE σ _ hσ _ _ t t' hsame ht' hd _ _ hx r s
      · rw [htog hc]
        cases t with
        | field f =>
          have : (doToggle E σ (.field f)).1 =
              putField E σ f (Int.lnot (Bits.readField (σ f.slot).raw f.index f.width)) := rfl
          rw [this]
          refine C35_frame sem E hE σ _ hσ _ _ _ t' hsame ht' hd
            (.int (Int.lnot (Bits.readField (σ f.slot).raw f.index f.width))) true ?_ r s
          simp [Env.set, hsame, setField, fieldInt, Except.map]
        | chan c =>
          have h1 := (C37_toggle sem E hE σ hσ _ _ hsame).1
          apply value_congr (sem := sem) _ ht'
          cases t' with
          | chan d => exact h1 d.slot (fun b hb => hd d.slot b ⟨hb, rfl⟩)
          | field g =>
            by_cases hw : g.width = 0
            · have hz : ∀ y : Int, Bits.readField y g.index g.width = 0 := by
                intro y
                have := Bits.C11_read_value y g.index g.width
                rw [hw] at this ⊢
                omega
              simp only [hz]
            · simp only
              rw [h1 g.slot (fun b hb => hd g.slot g.index ⟨hb, rfl, by constructor <;> omega⟩)]
  · rw [(C37_failure sem E hooks σ a (fun v hv => hsucc ⟨v, hv⟩)).1]

/-- C37 in full fails when a name is both a channel and a field: the flag of the channel is checked
and the field, commandable or not, is set. -/
theorem C37_shadowed_fails (sem : Sem) (E : Env) (hooks : List H) (σ : State) (n s : String)
    (c : Chan) (f : FieldE) (v : Int) (hn : E.names.nameOf (.name n) = some n)
    (hc : dget E.chans n = some c) (hf : dget E.fields n = some f) (hcc : c.commandable = true)
    (he : f.enum = none) (hb : sem.parseBool s = none) (hs : sem.parseInt s = some v) :
    (handle sem E hooks σ ⟨.set, false, false, n, [s]⟩).1 = putField E σ f v := by
  obtain ⟨h1, h2⟩ := C35_shadowed_fails E n c f (.name n) hn hc hf
  simp [handle, h2, Target.commandable, hcc, doSet, Env.set, h1, setField, fieldInt, he, hb, hs,
    Except.map]

/-! ### Concrete cases -/

/-- `b` is not commandable: refused, then forced with two hooks; `a` is set by name. -/
example :
    (handle demoSem demoEnv [10, 11] demoState ⟨.toggle, false, false, "b", []⟩).2.2
        = .ok .notCommandable
    ∧ (let r := handle demoSem demoEnv [10, 11] demoState ⟨.toggle, false, true, "b", []⟩;
        r.1 1 = .bool true ∧ r.2.1.map (·.hook) = [10, 11] ∧ r.2.2 = .ok (.success none))
    ∧ (let r := handle demoSem demoEnv [10, 11] demoState ⟨.set, false, false, "a", ["on"]⟩;
        r.1 0 = .int 7 ∧ r.2.1.map (·.hook) = [10, 11] ∧ r.2.2 = .ok (.success none))
    ∧ (let r := handle demoSem demoEnv [10, 11] demoState ⟨.set, false, false, "a", ["up"]⟩;
        r.1 0 = .int 0 ∧ r.2.1.map (·.hook) = [] ∧ r.2.2 = .ok .setFailed) := by
  decide +kernel

end Verif.Environment
