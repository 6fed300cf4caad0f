import Verif.Bits.Props
/-!
More of C13 (which additions are accepted) and C15 (export and re-import of a group).
-/
namespace Verif.Bits

open Verif.Wire

/-! ### C13 : acceptance -/

namespace Spec

/-- No call of the history raised. -/
def NoRaise (validName : String → Bool) (k : IntKind) : List Op → Prop
  | [] => True
  | op :: rest => NoRaise validName k rest ∧
      ∀ e, (step validName (after validName k rest) op).2 ≠ .raised e

/-- Names given to fields and flags in a history. -/
def names : List Op → List String
  | [] => []
  | .flag n .. :: rest => n :: names rest
  | .field n .. :: rest => n :: names rest
  | _ :: rest => names rest

/-- A free range: inside the primitive and sharing no bit with an object handed out. -/
def Free (k : IntKind) (handles : List (Nat × Nat)) (index width : Nat) : Prop :=
  ∀ b, Covers index width b → b < k.bits ∧ ∀ a ∈ handles, ¬ Covers a.1 a.2 b

end Spec

/-- What is known about the bookkeeping after a history without exceptions. -/
structure Book (k : IntKind) (s : St) (ops : List Op) : Prop where
  kind : s.g.kind = k
  avail : ∀ b, s.g.avail b = true ↔ (b < k.bits ∧ ∀ a ∈ s.handles, ¬ Spec.Covers a.1 a.2 b)
  fin : s.g.finalized = true ↔ .finalize ∈ ops
  names : ∀ n, s.g.fields.any (·.1 == n) = true ↔ n ∈ Spec.names ops

theorem Book.claim {k : IntKind} {s : St} {ops : List Op} (hb : Book k s ops) {g' : Group}
    {w i : Nat} {idx : Option Int} (h : s.g.claim w idx = .ok (g', i)) :
    (∀ b, g'.avail b = true ↔ (b < k.bits ∧ ∀ a ∈ s.handles ++ [(i, w)], ¬ Spec.Covers a.1 a.2 b))
    ∧ g'.kind = k ∧ g'.finalized = s.g.finalized ∧ g'.fields = s.g.fields := by
  obtain ⟨-, -, ha, rfl⟩ := claim_ok h
  refine ⟨?_, hb.kind, rfl, rfl⟩
  intro b
  simp only [Bool.and_eq_true, Bool.not_eq_true', Bool.and_eq_false_iff, decide_eq_false_iff_not,
    List.mem_append, List.mem_singleton, hb.avail]
  constructor
  · rintro ⟨⟨h1, h2⟩, h3⟩
    refine ⟨h1, ?_⟩
    rintro a (h4 | rfl)
    · exact h2 a h4
    · intro hc; have := hc.1; have := hc.2; dsimp only at *; omega
  · rintro ⟨h1, h2⟩
    refine ⟨⟨h1, fun a h4 => h2 a (Or.inl h4)⟩, ?_⟩
    have := h2 (i, w) (Or.inr rfl)
    unfold Spec.Covers at this
    dsimp only at this
    omega

theorem book_after (validName : String → Bool) (k : IntKind) (ops : List Op)
    (hn : Spec.NoRaise validName k ops) : Book k (after validName k ops) ops := by
  induction ops with
  | nil =>
    refine ⟨rfl, ?_, by simp [after, Group.new], by simp [after, Group.new, Spec.names]⟩
    intro b; simp [after, Group.new]
  | cons op rest ih =>
    have ih := ih hn.1
    have hno := hn.2
    show Book k (step validName (after validName k rest) op).1 (op :: rest)
    generalize after validName k rest = s at ih hno ⊢
    cases op with
    | flag n i e c =>
      simp only [step, Group.flag] at hno ⊢
      cases hcl : s.g.claim 1 i with
      | error x => rw [hcl] at hno; exact absurd rfl (hno x)
      | ok r =>
        obtain ⟨g', i'⟩ := r
        rw [hcl] at hno
        dsimp only at hno ⊢
        obtain ⟨h1, h2, h3, h4⟩ := ih.claim hcl
        by_cases hok : fieldOk validName g'.kind n i' 1 = true
        · rw [if_pos hok]
          refine ⟨h2, h1, ?_, ?_⟩
          · show g'.finalized = true ↔ _
            rw [h3, ih.fin]; simp
          · intro x
            show (dset g'.fields n _).any _ = true ↔ _
            rw [mem_dset_keys, h4, Bool.or_eq_true, ih.names]
            simp only [Spec.names, List.mem_cons, beq_iff_eq]
            constructor
            · rintro (h | h); exacts [Or.inr h, Or.inl h.symm]
            · rintro (h | h); exacts [Or.inr h.symm, Or.inl h]
        · rw [if_neg hok] at hno; exact absurd rfl (hno .assertion)
    | field n w i e c =>
      simp only [step, Group.field] at hno ⊢
      by_cases hw1 : w = 1
      · rw [if_pos hw1] at hno; exact absurd rfl (hno .assertion)
      rw [if_neg hw1] at hno ⊢
      cases hcl : s.g.claim w i with
      | error x => rw [hcl] at hno; exact absurd rfl (hno x)
      | ok r =>
        obtain ⟨g', i'⟩ := r
        rw [hcl] at hno
        dsimp only at hno ⊢
        obtain ⟨h1, h2, h3, h4⟩ := ih.claim hcl
        by_cases hok : fieldOk validName g'.kind n i' w = true
        · rw [if_pos hok] at hno ⊢
          by_cases hdup : g'.fields.any (·.1 == n) = true
          · rw [if_pos hdup] at hno; exact absurd rfl (hno .assertion)
          rw [if_neg hdup]
          refine ⟨h2, h1, ?_, ?_⟩
          · show g'.finalized = true ↔ _
            rw [h3, ih.fin]; simp
          · intro x
            show (dset g'.fields n _).any _ = true ↔ _
            rw [mem_dset_keys, h4, Bool.or_eq_true, ih.names]
            simp only [Spec.names, List.mem_cons, beq_iff_eq]
            constructor
            · rintro (h | h); exacts [Or.inr h, Or.inl h.symm]
            · rintro (h | h); exacts [Or.inr h.symm, Or.inl h]
        · rw [if_neg hok] at hno; exact absurd rfl (hno .assertion)
    | pad w i v =>
      simp only [step, Group.pad] at hno ⊢
      cases hcl : s.g.claim w i with
      | error x => rw [hcl] at hno; exact absurd rfl (hno x)
      | ok r =>
        obtain ⟨g', i'⟩ := r
        dsimp only
        obtain ⟨h1, h2, h3, h4⟩ := ih.claim hcl
        refine ⟨h2, h1, ?_, ?_⟩
        · show g'.finalized = true ↔ _
          rw [h3, ih.fin]; simp
        · intro x
          show g'.fields.any _ = true ↔ _
          rw [h4, ih.names]; rfl
    | write h v =>
      simp only [step]
      cases s.handles[h]? with
      | none =>
        refine ⟨ih.kind, ih.avail, by rw [ih.fin]; simp, ih.names⟩
      | some p =>
        refine ⟨ih.kind, ih.avail, ?_, ih.names⟩
        show s.g.finalized = true ↔ _
        rw [ih.fin]; simp
    | invert h =>
      simp only [step]
      cases s.handles[h]? with
      | none =>
        refine ⟨ih.kind, ih.avail, by rw [ih.fin]; simp, ih.names⟩
      | some p =>
        refine ⟨ih.kind, ih.avail, ?_, ih.names⟩
        show s.g.finalized = true ↔ _
        rw [ih.fin]; simp
    | finalize =>
      refine ⟨ih.kind, ih.avail, ?_, ih.names⟩
      show (true = true) ↔ _
      simp

theorem claim_iff {k : IntKind} {s : St} {ops : List Op} (hb : Book k s ops) (w : Nat) (r : Int) :
    (∃ g' i, s.g.claim w (some r) = .ok (g', i)) ↔
      (.finalize ∉ ops ∧ 0 ≤ r ∧ Spec.Free k s.handles r.toNat w) := by
  unfold Group.claim Spec.Free
  simp only [Option.getD_some]
  constructor
  · rintro ⟨g', i, h⟩
    split at h
    · cases h
    · rename_i hf
      split at h
      · split at h <;> cases h
      · rename_i hneg
        split at h
        · rename_i hall
          refine ⟨fun hm => hf (hb.fin.mpr hm), by omega, ?_⟩
          intro b hbc
          rw [List.all_eq_true] at hall
          have := hall (b - r.toNat) (by rw [List.mem_range]; have := hbc.1; have := hbc.2; omega)
          rw [show b - r.toNat + r.toNat = b by have := hbc.1; omega] at this
          exact (hb.avail b).mp this
        · cases h
  · rintro ⟨hf, hr, hfree⟩
    have hf' : ¬ s.g.finalized = true := fun h => hf (hb.fin.mp h)
    rw [if_neg hf', if_neg (by omega)]
    rw [if_pos (by
      rw [List.all_eq_true]
      intro x hx
      rw [List.mem_range] at hx
      exact (hb.avail _).mpr (hfree _ ⟨by omega, by omega⟩))]
    exact ⟨_, _, rfl⟩

/-- C13. In a group without failed calls, adding a field at an explicit position succeeds exactly
when the group is not finalised, the range is free and inside the primitive, the width is not
one, the name is acceptable and the name is new. -/
theorem C13_field_accepted (validName : String → Bool) (k : IntKind) (ops : List Op)
    (hn : Spec.NoRaise validName k ops) (n : String) (w : Nat) (r : Int) (e : Option Int) (c : Bool) :
    (∃ i, (step validName (after validName k ops) (.field n w (some r) e c)).2 = .at i) ↔
      (w ≠ 1 ∧ .finalize ∉ ops ∧ 0 ≤ r ∧ r < k.bits ∧ Spec.Free k (after validName k ops).handles r.toNat w
        ∧ validName n = true ∧ n ∉ Spec.names ops) := by
  have hb := book_after validName k ops hn
  have hcl := claim_iff hb w r
  generalize after validName k ops = s at *
  simp only [step, Group.field]
  by_cases hw1 : w = 1
  · rw [if_pos hw1]
    exact ⟨fun ⟨i, h⟩ => by simp [allocOut] at h, fun h => absurd hw1 h.1⟩
  rw [if_neg hw1]
  cases hcl' : s.g.claim w (some r) with
  | error x =>
    refine ⟨fun ⟨i, h⟩ => by simp [allocOut] at h, fun h => ?_⟩
    obtain ⟨g', i, h'⟩ := hcl.mpr ⟨h.2.1, h.2.2.1, h.2.2.2.2.1⟩
    rw [hcl'] at h'; cases h'
  | ok p =>
    obtain ⟨g', i'⟩ := p
    obtain ⟨hf, hr, hfree⟩ := hcl.mp ⟨g', i', hcl'⟩
    obtain ⟨-, hidx, -, -⟩ := claim_ok hcl'
    obtain ⟨h1, h2, h3, h4⟩ := hb.claim hcl'
    have hi' : r = (i' : Int) := by simpa using hidx
    have hwle : w ≤ k.bits := by
      by_cases h0 : w = 0
      · omega
      · have := (hfree (r.toNat + w - 1) ⟨by omega, by omega⟩).1
        omega
    dsimp only
    rw [h2, h4]
    by_cases hok : fieldOk validName k n i' w = true
    · rw [if_pos hok]
      simp only [fieldOk, Bool.and_eq_true, decide_eq_true_eq] at hok
      by_cases hdup : s.g.fields.any (·.1 == n) = true
      · rw [if_pos hdup]
        refine ⟨fun ⟨i, h⟩ => by simp [allocOut] at h, fun h => ?_⟩
        exact absurd ((hb.names n).mp hdup) h.2.2.2.2.2.2
      · rw [if_neg hdup]
        refine ⟨fun _ => ⟨hw1, hf, hr, by omega, hfree, hok.2, fun h => hdup ((hb.names n).mpr h)⟩,
          fun _ => ⟨i', rfl⟩⟩
    · rw [if_neg hok]
      refine ⟨fun ⟨i, h⟩ => by simp [allocOut] at h, fun h => ?_⟩
      exfalso; apply hok
      simp only [fieldOk, Bool.and_eq_true, decide_eq_true_eq]
      exact ⟨⟨by have := h.2.2.2.1; omega, hwle⟩, h.2.2.2.2.2.1⟩

/-- C13. The same for flags (one bit; the name need not be new). -/
theorem C13_flag_accepted (validName : String → Bool) (k : IntKind) (ops : List Op)
    (hn : Spec.NoRaise validName k ops) (n : String) (r : Int) (e : Option Int) (c : Bool) :
    (∃ i, (step validName (after validName k ops) (.flag n (some r) e c)).2 = .at i) ↔
      (.finalize ∉ ops ∧ 0 ≤ r ∧ Spec.Free k (after validName k ops).handles r.toNat 1
        ∧ validName n = true) := by
  have hb := book_after validName k ops hn
  have hcl := claim_iff hb 1 r
  generalize after validName k ops = s at *
  simp only [step, Group.flag]
  cases hcl' : s.g.claim 1 (some r) with
  | error x =>
    refine ⟨fun ⟨i, h⟩ => by simp [allocOut] at h, fun h => ?_⟩
    obtain ⟨g', i, h'⟩ := hcl.mpr ⟨h.1, h.2.1, h.2.2.1⟩
    rw [hcl'] at h'; cases h'
  | ok p =>
    obtain ⟨g', i'⟩ := p
    obtain ⟨hf, hr, hfree⟩ := hcl.mp ⟨g', i', hcl'⟩
    obtain ⟨-, hidx, -, -⟩ := claim_ok hcl'
    obtain ⟨h1, h2, h3, h4⟩ := hb.claim hcl'
    have hi' : r = (i' : Int) := by simpa using hidx
    have hlt := (hfree r.toNat ⟨by omega, by omega⟩).1
    dsimp only
    rw [h2]
    by_cases hok : fieldOk validName k n i' 1 = true
    · rw [if_pos hok]
      simp only [fieldOk, Bool.and_eq_true, decide_eq_true_eq] at hok
      exact ⟨fun _ => ⟨hf, hr, hfree, hok.2⟩, fun _ => ⟨i', rfl⟩⟩
    · rw [if_neg hok]
      refine ⟨fun ⟨i, h⟩ => by simp [allocOut] at h, fun h => ?_⟩
      exfalso; apply hok
      simp only [fieldOk, Bool.and_eq_true, decide_eq_true_eq]
      exact ⟨⟨by omega, by omega⟩, h.2.2.2⟩

/-- C13. The same for padding. -/
theorem C13_pad_accepted (validName : String → Bool) (k : IntKind) (ops : List Op)
    (hn : Spec.NoRaise validName k ops) (w : Nat) (r : Int) (v : Int) :
    (∃ i, (step validName (after validName k ops) (.pad w (some r) v)).2 = .at i) ↔
      (.finalize ∉ ops ∧ 0 ≤ r ∧ Spec.Free k (after validName k ops).handles r.toNat w) := by
  have hb := book_after validName k ops hn
  have hcl := claim_iff hb w r
  generalize after validName k ops = s at *
  simp only [step, Group.pad]
  rw [← hcl]
  cases hcl' : s.g.claim w (some r) with
  | error x =>
    exact ⟨fun ⟨i, h⟩ => by simp [allocOut] at h, fun ⟨g', i, h⟩ => by cases h⟩
  | ok p => exact ⟨fun _ => ⟨_, _, rfl⟩, fun _ => ⟨p.2, rfl⟩⟩

/-- C13 does not hold as stated when calls fail: a rejected name leaves its bits claimed, and a
correct call for the same bits is then refused, although no field occupies them. -/
theorem C13_failed_call_leaks_fails :
    let valid := fun n => n != "bad name"
    let s := after valid .uint8 [.field "bad name" 4 (some 0) none false]
    s.handles = []
    ∧ (step valid s (.field "good" 4 (some 0) none false)).2 = .raised .assertion
    ∧ (step valid (after valid .uint8 []) (.field "good" 4 (some 0) none false)).2 = .at 0 := by
  decide +kernel

/-- A second flag with the name of an existing one is accepted and replaces it under that name
(fields.py 153–157), unlike a field. -/
theorem C13_duplicate_flag_fails :
    let valid := fun _ => true
    let s := after valid .uint8 [.flag "a" none none false, .flag "a" none none false]
    s.handles = [(0, 1), (1, 1)] ∧ (s.g.getByName "a").map (·.index) = some 1
    ∧ (step valid s (.field "a" 2 none none false)).2 = .raised .assertion := by
  decide +kernel

example : Spec.NoRaise (fun _ => true) .uint8
    [.field "b" 3 (some 4) none false, .flag "a" none none false] := by
  refine ⟨⟨trivial, ?_⟩, ?_⟩ <;> intro e <;> cases e <;> decide +kernel

/-- C13. Without an explicit position, consecutive additions are packed from bit zero upwards:
the next position is one past the highest bit handed out, provided no call failed and no
zero-width object was requested. -/
theorem C13_default_position (validName : String → Bool) (k : IntKind) (ops : List Op)
    (hn : Spec.NoRaise validName k ops)
    (hw : ∀ op ∈ ops, ∀ i w v n e c, (op = .field n w i e c ∨ op = .pad w i v) → 0 < w) :
    (∀ a ∈ (after validName k ops).handles, a.1 + a.2 ≤ (after validName k ops).g.curr)
    ∧ ((after validName k ops).g.curr = 0 ∨
        ∃ a ∈ (after validName k ops).handles, a.1 + a.2 = (after validName k ops).g.curr) := by
  have key : ∀ (s : St) (g' : Group) (w i : Nat) (idx : Option Int) (hs : List (Nat × Nat)) (cur : Nat),
      0 < w →
      ((∀ a ∈ s.handles, a.1 + a.2 ≤ s.g.curr) ∧ (s.g.curr = 0 ∨ ∃ a ∈ s.handles, a.1 + a.2 = s.g.curr)) →
      (∀ a ∈ s.handles, ∀ b, Spec.Covers a.1 a.2 b → s.g.avail b = false) →
      (∀ a ∈ s.handles, 0 < a.2) →
      s.g.claim w idx = .ok (g', i) → cur = g'.curr → hs = s.handles ++ [(i, w)] →
      (∀ a ∈ hs, a.1 + a.2 ≤ cur) ∧ (cur = 0 ∨ ∃ a ∈ hs, a.1 + a.2 = cur) := by
    intro s g' w i idx hs cur hw ⟨h1, h2⟩ htk hpos hcl hcur hhs
    subst hcur hhs
    obtain ⟨-, -, ha, rfl⟩ := claim_ok hcl
    dsimp only
    by_cases hge : i ≥ s.g.curr
    · rw [if_pos hge]
      refine ⟨?_, Or.inr ⟨(i, w), by simp, rfl⟩⟩
      intro a ha'
      rcases List.mem_append.mp ha' with h | h
      · have := h1 a h; omega
      · rw [List.mem_singleton] at h; subst h; exact Nat.le_refl _
    · rw [if_neg hge]
      have hend : i + w ≤ s.g.curr := by
        rcases h2 with h0 | ⟨a, ham, hae⟩
        · omega
        · rcases Nat.lt_or_ge s.g.curr (i + w) with hlt | hge'
          · have hp := hpos a ham
            have t := htk a ham (s.g.curr - 1) ⟨by omega, by omega⟩
            rw [ha (s.g.curr - 1) ⟨by omega, by omega⟩] at t
            cases t
          · exact hge'
      refine ⟨?_, ?_⟩
      · intro a ha'
        rcases List.mem_append.mp ha' with h | h
        · exact h1 a h
        · rw [List.mem_singleton] at h; subst h; exact hend
      · rcases h2 with h0 | ⟨a, ham, hae⟩
        · exact Or.inl h0
        · exact Or.inr ⟨a, by simp [ham], hae⟩
  induction ops with
  | nil => exact ⟨by simp [after], Or.inl rfl⟩
  | cons op rest ih =>
    have ihp := ih hn.1 (fun op' h => hw op' (List.mem_cons_of_mem _ h))
    have hno := hn.2
    have hb := inv_after validName k rest
    have htk : ∀ a ∈ (after validName k rest).handles, ∀ b, Spec.Covers a.1 a.2 b →
        (after validName k rest).g.avail b = false := by
      rw [hb.handles]
      intro a ha
      obtain ⟨c, hc, rfl⟩ := List.mem_map.mp ha
      exact hb.taken c hc
    have hpos : ∀ a ∈ (after validName k rest).handles, 0 < a.2 := by
      have : ∀ (l : List Op), (∀ op ∈ l, ∀ i w v n e c, (op = .field n w i e c ∨ op = .pad w i v) → 0 < w) →
          ∀ a ∈ (after validName k l).handles, 0 < a.2 := by
        intro l
        induction l with
        | nil => intro _ a ha; simp [after] at ha
        | cons o l ihl =>
          intro hl a ha
          have ihl := ihl (fun op' h => hl op' (List.mem_cons_of_mem _ h))
          have hp := C13_position validName (after validName k l) o
          have ho := hl o List.mem_cons_self
          cases hout : (step validName (after validName k l) o).2 with
          | «at» i =>
            rw [show (after validName k (o :: l)).handles
              = (step validName (after validName k l) o).1.handles from rfl, (hp.1 i hout).1] at ha
            rcases List.mem_append.mp ha with h | h
            · exact ihl a h
            · rw [List.mem_singleton] at h; subst h
              cases o with
              | flag => exact Nat.one_pos
              | field n w i e c => exact ho i w 0 n e c (Or.inl rfl)
              | pad w i v => exact ho i w v "" none false (Or.inr rfl)
              | write => simp [step] at hout; split at hout <;> cases hout
              | invert => simp [step] at hout; split at hout <;> cases hout
              | finalize => cases hout
          | raised e =>
            exact ihl a (by rw [← hp.2 e hout]; exact ha)
          | val v =>
            apply ihl
            cases o <;> simp only [step, allocOut] at hout <;>
              first
              | (split at hout <;> cases hout)
              | cases hout
            all_goals (simp only [after, step] at ha; split at ha <;> exact ha)
          | done =>
            apply ihl
            cases o <;> simp only [step, allocOut] at hout <;>
              first
              | (split at hout <;> cases hout)
              | skip
            all_goals (simp only [after, step] at ha; first | exact ha | (split at ha <;> exact ha))
      exact this rest (fun op' h => hw op' (List.mem_cons_of_mem _ h))
    show (∀ a ∈ (step validName (after validName k rest) op).1.handles,
        a.1 + a.2 ≤ (step validName (after validName k rest) op).1.g.curr) ∧ _
    have hwop := hw op List.mem_cons_self
    have hcons : after validName k (op :: rest) = (step validName (after validName k rest) op).1 := rfl
    rw [hcons]
    generalize after validName k rest = s at *
    cases op with
    | flag n i e c =>
      simp only [step, Group.flag] at hno ⊢
      cases hcl : s.g.claim 1 i with
      | error x => rw [hcl] at hno; exact absurd rfl (hno x)
      | ok r =>
        obtain ⟨g', i'⟩ := r
        rw [hcl] at hno
        dsimp only at hno ⊢
        by_cases hok : fieldOk validName g'.kind n i' 1 = true
        · rw [if_pos hok]
          exact key s g' 1 i' i _ _ Nat.one_pos ihp htk hpos hcl rfl rfl
        · rw [if_neg hok] at hno; exact absurd rfl (hno .assertion)
    | field n w i e c =>
      simp only [step, Group.field] at hno ⊢
      by_cases hw1 : w = 1
      · rw [if_pos hw1] at hno; exact absurd rfl (hno .assertion)
      rw [if_neg hw1] at hno ⊢
      cases hcl : s.g.claim w i with
      | error x => rw [hcl] at hno; exact absurd rfl (hno x)
      | ok r =>
        obtain ⟨g', i'⟩ := r
        rw [hcl] at hno
        dsimp only at hno ⊢
        by_cases hok : fieldOk validName g'.kind n i' w = true
        · rw [if_pos hok] at hno ⊢
          by_cases hdup : g'.fields.any (·.1 == n) = true
          · rw [if_pos hdup] at hno; exact absurd rfl (hno .assertion)
          rw [if_neg hdup]
          exact key s g' w i' i _ _ (hwop i w 0 n e c (Or.inl rfl)) ihp htk hpos hcl rfl rfl
        · rw [if_neg hok] at hno; exact absurd rfl (hno .assertion)
    | pad w i v =>
      simp only [step, Group.pad] at hno ⊢
      cases hcl : s.g.claim w i with
      | error x => rw [hcl] at hno; exact absurd rfl (hno x)
      | ok r =>
        obtain ⟨g', i'⟩ := r
        exact key s g' w i' i _ _ (hwop i w v "" none false (Or.inr rfl)) ihp htk hpos hcl rfl rfl
    | write h v =>
      simp only [step]
      cases s.handles[h]? with
      | none => exact ihp
      | some p => exact ihp
    | invert h =>
      simp only [step]
      cases s.handles[h]? with
      | none => exact ihp
      | some p => exact ihp
    | finalize => exact ihp

/-- The position chosen without an explicit index is that next position. -/
theorem C13_default_is_next (g g' : Group) (w i : Nat) (h : g.claim w none = .ok (g', i)) :
    i = g.curr := by
  obtain ⟨-, hidx, -, -⟩ := claim_ok h
  simpa using hidx.symm

/-- Once finalised, no addition succeeds or changes anything, whatever follows. -/
theorem C13_finalized (validName : String → Bool) (s : St) (hf : s.g.finalized = true) (op : Op) :
    (∀ i, (step validName s op).2 ≠ .at i)
    ∧ (step validName s op).1.handles = s.handles
    ∧ (step validName s op).1.g.fields = s.g.fields
    ∧ (step validName s op).1.g.byIndex = s.g.byIndex
    ∧ (step validName s op).1.g.finalized = true := by
  have hcl : ∀ w i, s.g.claim w i = .error .assertion := by
    intro w i; unfold Group.claim; rw [if_pos hf]
  cases op with
  | flag n i e c => simp [step, Group.flag, hcl, allocOut, hf]
  | field n w i e c =>
    simp only [step, Group.field, hcl]
    by_cases hw : w = 1 <;> simp [hw, allocOut, hf]
  | pad w i v => simp [step, Group.pad, hcl, allocOut, hf]
  | write h v =>
    simp only [step]
    cases s.handles[h]? with
    | none => exact ⟨fun _ h => (by cases h), rfl, rfl, rfl, hf⟩
    | some p => exact ⟨fun _ h => (by cases h), rfl, rfl, rfl, hf⟩
  | invert h =>
    simp only [step]
    cases s.handles[h]? with
    | none => exact ⟨fun _ h => (by cases h), rfl, rfl, rfl, hf⟩
    | some p => exact ⟨fun _ h => (by cases h), rfl, rfl, rfl, hf⟩
  | finalize => exact ⟨fun _ h => (by cases h), rfl, rfl, rfl, rfl⟩

end Verif.Bits
