import Verif.Env.Props
/-!
C36: applying exported values restores an environment.
-/
namespace Verif.Environment

open Verif.Wire Verif.Registry

namespace Spec

/-- The storage of a channel or field is the same in both states. -/
def Agree (σ σ0 : State) : Target → Prop
  | .chan c => σ c.slot = σ0 c.slot
  | .field f => ∀ b, Bits.Spec.Covers f.index f.width b →
      (Bits.Spec.bit (σ f.slot).raw b ↔ Bits.Spec.bit (σ0 f.slot).raw b)

/-- Channels whose values can be written back: no scaling or a linear one with a slope, and no
integer enumeration on a boolean channel. -/
structure Restorable (E : Env) (c : Chan) : Prop where
  scaling : (E.prim c.slot).scaling = [] ∨ ∃ a b, b ≠ 0 ∧ (E.prim c.slot).scaling = [a, b]
  enum : (E.prim c.slot).kind = .bool → ∀ m, c.enum ≠ some (.ints m)

end Spec

/-- Storing a number equal to the stored value gives the stored value. -/
theorem store_back {sem : Sem} {kind : SKind} {x : PV} (hf : Spec.Fits sem kind x) {u : CV} {q : Rat}
    (hu : u.rat = some q) (hx : x.rat = some q) :
    (match (match kind with
        | .int k => match u.rat with
          | none => Except.error PyErr.value
          | some q => .ok (CV.int (k.bounds.clamp (Scaling.pyRound q)))
        | _ => .ok u) with
      | .ok v => store sem kind v
      | .error e => .error e) = .ok x := by
  cases kind with
  | int k =>
    cases x with
    | bool b => exact absurd hf id
    | num q => exact absurd hf id
    | int n =>
      simp only [PV.rat, Option.some.injEq] at hx
      subst hx
      simp only [hu, Scaling.pyRound_int, clamp_in k n hf, store, wrap_in k n hf]
  | bool =>
    cases x with
    | int n => exact absurd hf id
    | num q => exact absurd hf id
    | bool b =>
      simp only [PV.rat, Option.some.injEq] at hx
      simp only
      cases u with
      | str s => simp [CV.rat] at hu
      | int v =>
        simp only [CV.rat, Option.some.injEq] at hu
        rw [← hx] at hu
        cases b
        · simp at hu; simp [store, hu]
        · simp only [if_true] at hu
          have : v = 1 := by exact_mod_cast hu
          simp [store, this]
      | bool v =>
        simp only [CV.rat, Option.some.injEq] at hu
        rw [← hx] at hu
        cases b <;> cases v <;> simp [store] at hu ⊢
      | num v =>
        simp only [CV.rat] at hu
        subst hu
        cases b <;> simp [store, ← hx]
  | float =>
    cases x with
    | int n => exact absurd hf id
    | bool b => exact absurd hf id
    | num r =>
      simp only [PV.rat] at hx
      subst hx
      have hf' : sem.rnd q = q := hf
      simp only
      cases u with
      | str s => simp [CV.rat] at hu
      | int v =>
        simp only [CV.rat, Option.some.injEq] at hu
        simp only [store, hu, hf']
      | bool v =>
        simp only [CV.rat, Option.some.injEq] at hu
        simp only [store, hu, hf']
      | num v =>
        simp only [CV.rat] at hu
        subst hu
        simp only [store, Option.map_some, hf']

/-- Assigning a number equal to the scaled value restores the stored value. -/
theorem assign_back {sem : Sem} {E : Env} {c : Chan} (hr : Spec.Restorable E c) {x : PV}
    (hf : Spec.Fits sem (E.prim c.slot).kind x) {u : CV} {q : Rat}
    (hu : u.rat = some q) (hx : (primScaled (E.prim c.slot) x).rat = some q) :
    assign sem (E.prim c.slot) u true = .ok x := by
  rcases hr.scaling with hs | ⟨a, b, hb, hs⟩
  · have hx' : x.rat = some q := by
      rw [primScaled, hs] at hx
      cases x <;> simpa [PV.toCV, CV.rat, PV.rat] using hx
    have := store_back hf hu hx'
    simp only [assign, primInvert, hs, invertCV, if_true]
    exact this
  · cases hxr : x.rat with
    | none => simp [primScaled, hs, hxr, CV.rat] at hx
    | some z =>
      have hq : Scaling.apply z [a, b] = q := by
        simpa [primScaled, hs, hxr, CV.rat] using hx
      have hinv : Scaling.unscale q [a, b] = .ok z := by
        rw [← hq, Scaling.apply_two]
        simp [Scaling.unscale, hb]
      have := store_back (u := .num (some z)) hf rfl hxr
      simp only [assign, primInvert, hs, invertCV, hu, hinv, Except.map, if_true]
      exact this

theorem getStr_ok {K : Type} [DecidableEq K] {m : Mapping K} (hb : Registry.Spec.Bij m) {i : K}
    {s : String} (h : Registry.getStr m (.id i) = .ok s) : m.identifier (.name s) = some i := by
  unfold Registry.getStr at h
  cases hn : m.nameOf (.id i) with
  | none => rw [hn] at h; cases h
  | some t =>
    rw [hn] at h
    simp only [Except.ok.injEq] at h
    subst h
    exact (hb i t).mp hn

theorem eqInt_rat {v : CV} {i : Int} (h : v.eqInt = some i) : v.rat = some (i : Rat) := by
  cases v with
  | str s => cases h
  | int n => simp only [CV.eqInt, Option.some.injEq] at h; subst h; rfl
  | bool b =>
    simp only [CV.eqInt, Option.some.injEq] at h
    subst h
    cases b <;> simp [CV.rat]
  | num q =>
    cases q with
    | none => cases h
    | some q =>
      simp only [CV.eqInt] at h
      split at h
      · rename_i hd
        simp only [Option.some.injEq] at h
        subst h
        simp only [CV.rat, Option.some.injEq]
        exact ((Rat.den_eq_one_iff q).mp hd).symm
      · cases h

/-- The name found for a number resolves to an integer equal to that number. -/
theorem enum_back {sem : Sem} {e : Enum} (he : Spec.EnumOk e) {v : CV} {s : String}
    (h : e.getStr v = .ok s) :
    (∃ i : Int, e.getInt sem s = .ok i ∧ v.eqInt = some i)
    ∧ ((∀ m, e ≠ .ints m) → ∃ b : Bool, e.getBool sem s = .ok b ∧ v.eqInt = some (if b then 1 else 0)) := by
  unfold Enum.getStr at h
  cases hv : v.eqInt with
  | none => rw [hv] at h; cases e <;> cases h
  | some i =>
    rw [hv] at h
    cases e with
    | ints m =>
      refine ⟨⟨i, getInt_name (getStr_ok he h), rfl⟩, fun hne => absurd rfl (hne m)⟩
    | bools m =>
      simp only at h
      have key : ∃ b : Bool, i = (if b then 1 else 0) ∧ m.identifier (.name s) = some b := by
        split at h
        · rename_i h0
          exact ⟨false, by simp [h0], getStr_ok he h⟩
        · split at h
          · rename_i h1
            exact ⟨true, by simp [h1], getStr_ok he h⟩
          · cases h
      obtain ⟨b, hi, hb⟩ := key
      have hg : Registry.getBool sem.parseBool m (.name s) = .ok b := by
        simp [Registry.getBool, asBool, hb]
      exact ⟨⟨i, by simp [Enum.getInt, hg, Except.map, hi], rfl⟩,
        fun _ => ⟨b, by simp [Enum.getBool, hg], by rw [hi]⟩⟩

theorem primScaled_not_str (p : Prim) (x : PV) : ∀ s, primScaled p x ≠ .str s := by
  intro s
  unfold primScaled
  split
  · cases x <;> simp [PV.toCV]
  · split <;> simp

/-- Writing back what a channel exported restores its primitive. -/
theorem chan_restore {sem : Sem} {E : Env} (hE : Spec.WF E) {key : Key Int} {c : Chan}
    (ht : E.target key = some (.chan c)) (hr : Spec.Restorable E c) {σ0 : State}
    (h0 : Spec.Typed sem E σ0) {v : CV} {r : Bool} (hv : E.value σ0 key r true = .ok v)
    (hx : v.exported = true) (σ : State) :
    E.set sem σ key v true = .ok (σ.put c.slot (σ0 c.slot)) := by
  obtain ⟨n, -, -, hn⟩ := target_chan ht
  have hf := h0 c.slot
  have plain : ∀ w : CV, w = primScaled (E.prim c.slot) (σ0 c.slot) → w.exported = true →
      E.set sem σ key w true = .ok (σ.put c.slot (σ0 c.slot)) := by
    intro w hw hwx
    have hrat : ∃ q, w.rat = some q := by
      cases w with
      | int v => exact ⟨_, rfl⟩
      | bool b => exact ⟨_, rfl⟩
      | num q => cases q with
        | none => cases hwx
        | some q => exact ⟨q, rfl⟩
      | str s => exact absurd hw.symm (primScaled_not_str _ _ s)
    obtain ⟨q, hq⟩ := hrat
    have ha := assign_back (sem := sem) (u := w) hr hf hq (by rw [← hw]; exact hq)
    cases w with
    | str s => exact absurd hw.symm (primScaled_not_str _ _ s)
    | _ => simp only [Env.set, ht, setChan, ha]
  cases r with
  | false =>
    simp only [Env.value, ht, getChanValue_false, if_true, Except.ok.injEq] at hv
    exact plain v hv.symm hx
  | true =>
    cases he : c.enum with
    | none =>
      simp only [Env.value, ht, getChanValue, he, if_true, Except.ok.injEq] at hv
      exact plain v hv.symm hx
    | some e =>
      have hok := hE.chanEnum n c e hn he
      simp only [Env.value, ht, getChanValue, he, if_true] at hv
      cases hs : e.getStr (primScaled (E.prim c.slot) (σ0 c.slot)) with
      | error x => rw [hs] at hv; cases hv
      | ok s =>
        rw [hs] at hv
        simp only [Except.map, Except.ok.injEq] at hv
        subst hv
        obtain ⟨⟨i, hi, heq⟩, hbool⟩ := enum_back (sem := sem) hok hs
        by_cases hk : (E.prim c.slot).kind = .bool
        · obtain ⟨b, hb, hbe⟩ := hbool (fun m hm => hr.enum hk m (by rw [he, hm]))
          have hq := eqInt_rat hbe
          have ha := assign_back (sem := sem) (u := .bool b) hr hf
            (q := ((if b then 1 else 0 : Int) : Rat)) (by cases b <;> simp [CV.rat]) hq
          simp only [Env.set, ht, setChan, resolve, he, hk, hb, Except.map, ha, if_true]
        · have hq := eqInt_rat heq
          have ha := assign_back (sem := sem) (u := .int i) hr hf (q := (i : Rat)) rfl hq
          simp only [Env.set, ht, setChan, resolve, he, hk, hi, Except.map, ha, if_false]

/-- Writing back what a field exported writes the integer it held. -/
theorem field_restore {sem : Sem} {E : Env} (hE : Spec.WF E) {key : Key Int} {f : FieldE}
    (ht : E.target key = some (.field f)) {σ0 : State} {v : CV} {r : Bool}
    (hv : E.value σ0 key r true = .ok v) (σ : State) :
    E.set sem σ key v true
      = .ok (putField E σ f (Bits.readField (σ0 f.slot).raw f.index f.width)) := by
  obtain ⟨n, -, hn⟩ := target_field ht
  have hrange := (Bits.C11_read_value (σ0 f.slot).raw f.index f.width).2
  have plain : v = (if f.width = 1 then
        .bool (decide (Bits.readField (σ0 f.slot).raw f.index f.width ≠ 0))
      else .int (Bits.readField (σ0 f.slot).raw f.index f.width)) →
      E.set sem σ key v true
        = .ok (putField E σ f (Bits.readField (σ0 f.slot).raw f.index f.width)) := by
    intro h
    by_cases hw : f.width = 1
    · rw [if_pos hw] at h
      subst h
      rw [hw] at hrange ⊢
      have e : (if decide (Bits.readField (σ0 f.slot).raw f.index 1 ≠ 0) = true then (1 : Int) else 0)
          = Bits.readField (σ0 f.slot).raw f.index 1 := by
        simp only [decide_eq_true_eq]
        split <;> omega
      simp only [Env.set, ht, setField, fieldInt, Except.map, e]
    · rw [if_neg hw] at h
      subst h
      simp only [Env.set, ht, setField, fieldInt, Except.map]
  cases r with
  | false =>
    simp only [Env.value, ht, getFieldValue_false, Except.ok.injEq] at hv
    exact plain hv.symm
  | true =>
    cases he : f.enum with
    | none =>
      simp only [Env.value, ht, getFieldValue, he, Except.ok.injEq] at hv
      exact plain hv.symm
    | some e =>
      have hok := hE.fieldEnum n f e hn he
      simp only [Env.value, ht, getFieldValue, he] at hv
      cases hs : e.getStr (.int (Bits.readField (σ0 f.slot).raw f.index f.width)) with
      | error x => rw [hs] at hv; cases hv
      | ok s =>
        rw [hs] at hv
        simp only [Except.map, Except.ok.injEq] at hv
        subst hv
        obtain ⟨⟨i, hi, heq⟩, -⟩ := enum_back (sem := sem) hok hs
        simp only [CV.eqInt, Option.some.injEq] at heq
        simp only [Env.set, ht, setField, fieldInt, he, hi, Except.map, heq]

theorem bit_read (x : Int) (i w j : Nat) (hj : j < w) :
    Bits.Spec.bit (Bits.readField x i w) j ↔ Bits.Spec.bit x (i + j) := by
  rw [Bits.readField_patt x i w (i + w) (Nat.le_refl _), Bits.bit_iff, Bits.bit_iff]
  show Nat.testBit _ _ = true ↔ _
  rw [Nat.testBit_mod_two_pow, Nat.testBit_div_two_pow, Bits.testBit_patt]
  have h1 : j + i = i + j := Nat.add_comm _ _
  have h2 : i + j < i + w := by omega
  simp [hj, h1]

/-- Restoring one channel keeps every agreement. -/
theorem agree_put {σ σ0 : State} {slot : Nat} {t : Target} (h : Spec.Agree σ σ0 t) :
    Spec.Agree (σ.put slot (σ0 slot)) σ0 t := by
  cases t with
  | chan c =>
    show σ.put slot (σ0 slot) c.slot = σ0 c.slot
    by_cases hj : c.slot = slot
    · subst hj; rw [put_self]
    · rw [put_ne _ _ hj]; exact h
  | field f =>
    intro b hb
    by_cases hj : f.slot = slot
    · subst hj; rw [put_self]
    · rw [put_ne _ _ hj]; exact h b hb

/-- Restoring one field makes it agree. -/
theorem agree_field_self {E : Env} {f : FieldE} {k : IntKind} (hk : (E.prim f.slot).kind = .int k)
    (hin : f.index + f.width ≤ k.bits) (σ σ0 : State) :
    Spec.Agree (putField E σ f (Bits.readField (σ0 f.slot).raw f.index f.width)) σ0 (.field f) := by
  intro b hb
  obtain ⟨h1, h2⟩ := hb
  have e : b = f.index + (b - f.index) := by omega
  rw [putField, put_self, raw_int, hk]
  simp only [SKind.intKind]
  rw [e, Bits.C11_write_bits k _ _ _ _ hin _ (by omega), bit_read _ _ _ _ (by omega)]

/-- Restoring one field keeps every agreement. -/
theorem agree_field {sem : Sem} {E : Env} (hE : Spec.WF E) {f : FieldE} {k : IntKind}
    (hk : (E.prim f.slot).kind = .int k) (hin : f.index + f.width ≤ k.bits) {σ σ0 : State}
    (h0 : Spec.Typed sem E σ0) {key : Key Int} {t : Target}
    (ht : E.target key = some t) (h : Spec.Agree σ σ0 t) :
    Spec.Agree (putField E σ f (Bits.readField (σ0 f.slot).raw f.index f.width)) σ0 t := by
  cases t with
  | chan c =>
    show putField E σ f _ c.slot = σ0 c.slot
    by_cases hj : c.slot = f.slot
    · have h' : σ f.slot = σ0 f.slot := by rw [← hj]; exact h
      obtain ⟨x, hx, hr⟩ := typed_int h0 hk
      rw [putField, hj, put_self, h', hk, hx]
      simp only [SKind.intKind, raw_int, PV.int.injEq]
      exact write_same k x _ _ _ hin x hr (fun _ _ _ => Iff.rfl)
        (fun j hj => bit_read x f.index f.width j hj)
    · rw [putField, put_ne _ _ hj]; exact h
  | field g =>
    by_cases hj : g.slot = f.slot
    · intro b hb
      obtain ⟨k', hk', hin'⟩ := WF.field hE ht
      rw [hj, hk] at hk'
      cases hk'
      by_cases hc : Bits.Spec.Covers f.index f.width b
      · have := agree_field_self hk hin σ σ0 b hc
        rw [hj]
        exact this
      · rw [putField, hj, put_self, raw_int, hk]
        simp only [SKind.intKind]
        have hb' : b < k.bits := by
          have h2 : b < g.index + g.width := hb.2
          omega
        rw [(Bits.C11_write_read k _ _ _ _ hin).2.2.1 b hb' hc]
        rw [← hj]
        exact h b hb
    · intro b hb
      rw [putField, put_ne _ _ hj]; exact h b hb

theorem read_congr {x y : Int} {i w : Nat}
    (h : ∀ b, Bits.Spec.Covers i w b → (Bits.Spec.bit x b ↔ Bits.Spec.bit y b)) :
    Bits.readField x i w = Bits.readField y i w := by
  rw [Bits.readField_patt x i w (i + w) (Nat.le_refl _),
    Bits.readField_patt y i w (i + w) (Nat.le_refl _)]
  congr 1
  apply Nat.eq_of_testBit_eq
  intro j
  rw [Nat.testBit_mod_two_pow, Nat.testBit_mod_two_pow, Nat.testBit_div_two_pow,
    Nat.testBit_div_two_pow, Bits.testBit_patt, Bits.testBit_patt]
  by_cases hj : j < w
  · have := h (i + j) ⟨by omega, by omega⟩
    rw [Bits.bit_iff, Bits.bit_iff] at this
    have h1 : j + i = i + j := Nat.add_comm _ _
    simp only [hj, decide_true, Bool.true_and, h1]
    rw [Bool.eq_iff_iff.mpr this]
  · simp [hj]

/-- Agreeing storage reads the same. -/
theorem agree_value {sem : Sem} {E : Env} {σ σ0 : State} {t : Target} {key : Key Int}
    (ht : E.target key = some t) (h : Spec.Agree σ σ0 t) (r s : Bool) :
    E.value σ key r s = E.value σ0 key r s := by
  apply value_congr (sem := sem) _ ht
  cases t with
  | chan c => exact h
  | field f => exact read_congr h

/-- A list of values each of which was read in `σ0`. -/
def Exported (E : Env) (σ0 : State) (r : Bool) (l : List (String × CV)) : Prop :=
  ∀ p ∈ l, E.value σ0 (.name p.1) r true = .ok p.2 ∧ p.2.exported = true

theorem apply_restores {sem : Sem} (hi : Spec.Idem sem) {E : Env} (hE : Spec.WF E)
    (hR : ∀ n c, dget E.chans n = some c → Spec.Restorable E c) {σ0 : State}
    (h0 : Spec.Typed sem E σ0) {r : Bool} (l : List (String × CV)) (hl : Exported E σ0 r l) (σ : State)
    (hσ : Spec.Typed sem E σ) :
    ∃ σ', E.apply sem σ l = (σ', .ok ()) ∧ Spec.Typed sem E σ'
      ∧ (∀ key t, E.target key = some t → Spec.Agree σ σ0 t → Spec.Agree σ' σ0 t)
      ∧ (∀ p ∈ l, ∀ t, E.target (.name p.1) = some t → Spec.Agree σ' σ0 t) := by
  induction l generalizing σ with
  | nil => exact ⟨σ, rfl, hσ, fun _ _ _ h => h, fun _ h => by cases h⟩
  | cons p rest ih =>
    obtain ⟨n, v⟩ := p
    obtain ⟨hv, hx⟩ := hl (n, v) List.mem_cons_self
    have hl' : Exported E σ0 r rest := fun p hp => hl p (List.mem_cons_of_mem _ hp)
    have step : ∃ σ1, E.set sem σ (.name n) v true = .ok σ1
        ∧ (∀ key t, E.target key = some t → Spec.Agree σ σ0 t → Spec.Agree σ1 σ0 t)
        ∧ (∀ t, E.target (.name n) = some t → Spec.Agree σ1 σ0 t) := by
      cases ht : E.target (.name n) with
      | none => simp [Env.value, ht] at hv
      | some t =>
        cases t with
        | chan c =>
          obtain ⟨m, -, -, hm⟩ := target_chan ht
          refine ⟨_, chan_restore hE ht (hR m c hm) h0 hv hx σ, fun _ _ _ h => agree_put h, ?_⟩
          intro t htt
          cases htt
          exact put_self _ _ _
        | field f =>
          obtain ⟨k, hk, hin⟩ := WF.field hE ht
          refine ⟨_, field_restore hE ht hv σ, fun key t h1 h2 => agree_field hE hk hin h0 h1 h2, ?_⟩
          intro t htt
          cases htt
          exact agree_field_self hk hin σ σ0
    obtain ⟨σ1, hs, hkeep, hself⟩ := step
    obtain ⟨σ', ha, hty, hkeep', hall⟩ := ih hl' σ1 (typed_set hi hE hσ hs)
    refine ⟨σ', ?_, hty, fun key t ht h => hkeep' key t ht (hkeep key t ht h), ?_⟩
    · simp only [Env.apply, hs, ha]
    · intro p hp t ht
      rcases List.mem_cons.mp hp with rfl | hp
      · exact hkeep' _ t ht (hself t ht)
      · exact hall p hp t ht

theorem valuesOf_ok {E : Env} {σ : State} {r : Bool} {names : List String} {l : List (String × CV)}
    (h : E.valuesOf σ r names = .ok l) :
    Exported E σ r l ∧ ∀ n ∈ names, ∃ v, E.value σ (.name n) r true = .ok v
      ∧ (v.exported = true → (n, v) ∈ l) := by
  induction names generalizing l with
  | nil =>
    simp only [Env.valuesOf, Except.ok.injEq] at h
    subst h
    exact ⟨fun _ hp => (by cases hp), fun _ hn => (by cases hn)⟩
  | cons n rest ih =>
    simp only [Env.valuesOf] at h
    cases hv : E.value σ (.name n) r true with
    | error e => rw [hv] at h; cases h
    | ok v =>
      rw [hv] at h
      cases hr : E.valuesOf σ r rest with
      | error e => rw [hr] at h; cases h
      | ok l' =>
        rw [hr] at h
        simp only [Except.ok.injEq] at h
        obtain ⟨h1, h2⟩ := ih hr
        by_cases hx : v.exported = true
        · rw [if_pos hx] at h
          subst h
          constructor
          · intro p hp
            rcases List.mem_cons.mp hp with rfl | hp
            · exact ⟨hv, hx⟩
            · exact h1 p hp
          · intro m hm
            rcases List.mem_cons.mp hm with rfl | hm
            · exact ⟨v, hv, fun _ => List.mem_cons_self⟩
            · obtain ⟨w, hw, hin⟩ := h2 m hm
              exact ⟨w, hw, fun hx => List.mem_cons_of_mem _ (hin hx)⟩
        · rw [if_neg hx] at h
          subst h
          refine ⟨h1, ?_⟩
          intro m hm
          rcases List.mem_cons.mp hm with rfl | hm
          · exact ⟨v, hv, fun h => absurd h hx⟩
          · exact h2 m hm

theorem name_mem {E : Env} (hE : Spec.WF E) {key : Key Int} {n : String}
    (h : E.names.nameOf key = some n) :
    n ∈ E.names.reverse.map (·.1) ∧ E.target (.name n) = E.target key := by
  have hid : ∃ i, E.names.identifier (.name n) = some i := by
    cases key with
    | id i => exact ⟨i, (hE.names i n).mp h⟩
    | name s =>
      simp only [Mapping.nameOf] at h
      split at h
      · rename_i hs
        cases h
        exact Option.isSome_iff_exists.mp hs
      · cases h
  obtain ⟨i, hi⟩ := hid
  refine ⟨List.mem_map.mpr ⟨(n, i), dget_mem hi, rfl⟩, ?_⟩
  have h2 : E.names.nameOf (.name n) = some n := nameOf_name hi
  simp only [Env.target, Env.getField, Env.getChan, h, h2]

/-- **C36** For every environment whose channels have no scaling or an invertible linear one (and no
integer enumeration on a boolean channel), every state at the time of export and every later state:
if the values can be exported, applying them succeeds and every key then reads (raw or scaled, as a
name or as a number) what it read at the time of export, except a channel whose exported value
would have been NaN. Channels and fields may share primitives in any way. -/
theorem C36_restore_partial (sem : Sem) (hi : Spec.Idem sem) (E : Env) (hE : Spec.WF E)
    (hR : ∀ n c, dget E.chans n = some c → Spec.Restorable E c) (σ0 σ1 : State)
    (h0 : Spec.Typed sem E σ0) (h1 : Spec.Typed sem E σ1) (r : Bool) (l : List (String × CV))
    (hl : E.values σ0 r = .ok l) :
    ∃ σ2, E.apply sem σ1 l = (σ2, .ok ()) ∧
      ∀ key, E.value σ0 key r true ≠ .ok (.num none) →
        ∀ r' s', E.value σ2 key r' s' = E.value σ0 key r' s' := by
  obtain ⟨hx, hall⟩ := valuesOf_ok hl
  obtain ⟨σ2, ha, -, -, hag⟩ := apply_restores hi hE hR h0 l hx σ1 h1
  refine ⟨σ2, ha, ?_⟩
  intro key hne r' s'
  cases ht : E.target key with
  | none => simp only [Env.value, ht]
  | some t =>
    have hn : ∃ n, E.names.nameOf key = some n := by
      cases t with
      | chan c => obtain ⟨n, h, -⟩ := target_chan ht; exact ⟨n, h⟩
      | field f => obtain ⟨n, h, -⟩ := target_field ht; exact ⟨n, h⟩
    obtain ⟨n, hn⟩ := hn
    obtain ⟨hmem, hte⟩ := name_mem hE hn
    obtain ⟨v, hv, hin⟩ := hall n hmem
    have hvk : E.value σ0 key r true = .ok v := by
      rw [← hv]; simp only [Env.value, hte]
    have hexp : v.exported = true := by
      cases v with
      | num q => cases q with
        | none => exact absurd hvk hne
        | some q => rfl
      | _ => rfl
    exact agree_value (sem := sem) ht (hag (n, v) (hin hexp) t (by rw [hte]; exact ht)) r' s'

/-- C36. Application goes through the values in order and stops at the first that is refused: what
was set before stays set, nothing after it is. -/
theorem C36_stops (sem : Sem) (E : Env) (σ σ1 : State) (l1 l2 : List (String × CV)) (n : String) (v : CV)
    (e : PyErr) (h1 : E.apply sem σ l1 = (σ1, .ok ()))
    (he : E.set sem σ1 (.name n) v true = .error e) :
    E.apply sem σ (l1 ++ (n, v) :: l2) = (σ1, .error e) := by
  induction l1 generalizing σ with
  | nil => cases h1; simp only [List.nil_append, Env.apply, he]
  | cons x xs ih =>
    obtain ⟨m, w⟩ := x
    simp only [List.cons_append, Env.apply] at h1 ⊢
    cases hs : E.set sem σ (.name m) w true with
    | error e' => rw [hs] at h1; cases h1
    | ok σ' => rw [hs] at h1; exact ih σ' h1

/-- Uses of an environment between export and application: setting a value (refused ones change
nothing) and toggling a channel or field. -/
inductive Use where
  | set (key : Key Int) (v : CV) (scaled : Bool)
  | toggle (key : Key Int)

/-- One use. -/
def Use.run (sem : Sem) (E : Env) (σ : State) : Use → State
  | .set key v scaled => match E.set sem σ key v scaled with
    | .ok σ' => σ'
    | .error _ => σ
  | .toggle key => match E.target key with
    | some t => (doToggle E σ t).1
    | none => σ

/-- A history of uses, oldest first. -/
def history (sem : Sem) (E : Env) (σ : State) (us : List Use) : State := us.foldl (Use.run sem E) σ

theorem typed_toggle {sem : Sem} {E : Env} (hE : Spec.WF E) {σ : State} (hσ : Spec.Typed sem E σ)
    {key : Key Int} {t : Target} (ht : E.target key = some t) :
    Spec.Typed sem E (doToggle E σ t).1 := by
  cases t with
  | field f =>
    obtain ⟨k, hk, -⟩ := WF.field hE ht
    intro j
    simp only [doToggle]
    by_cases hj : j = f.slot
    · subst hj
      rw [put_self, hk]
      exact (packable_iff _ _).mp (Bits.writeField_packable _ _ _ _ _)
    · rw [put_ne _ _ hj]; exact hσ j
  | chan c =>
    simp only [doToggle]
    split
    · rename_i hk
      cases hv : σ c.slot with
      | bool b =>
        intro j
        simp only
        by_cases hj : j = c.slot
        · subst hj; rw [put_self, hk]; trivial
        · rw [put_ne _ _ hj]; exact hσ j
      | int v => exact hσ
      | num v => exact hσ
    · exact hσ

theorem typed_history {sem : Sem} (hi : Spec.Idem sem) {E : Env} (hE : Spec.WF E) (us : List Use)
    {σ : State} (hσ : Spec.Typed sem E σ) : Spec.Typed sem E (history sem E σ us) := by
  induction us generalizing σ with
  | nil => exact hσ
  | cons u us ih =>
    apply ih
    cases u with
    | set key v scaled =>
      simp only [Use.run]
      cases hs : E.set sem σ key v scaled with
      | error e => exact hσ
      | ok σ' => exact typed_set hi hE hσ hs
    | toggle key =>
      simp only [Use.run]
      cases ht : E.target key with
      | none => exact hσ
      | some t => exact typed_toggle hE hσ ht

/-- **C36** After any history of uses, applying the values exported before it restores every key that
was not NaN. -/
theorem C36_history_partial (sem : Sem) (hi : Spec.Idem sem) (E : Env) (hE : Spec.WF E)
    (hR : ∀ n c, dget E.chans n = some c → Spec.Restorable E c) (σ0 : State)
    (h0 : Spec.Typed sem E σ0) (r : Bool) (l : List (String × CV)) (hl : E.values σ0 r = .ok l)
    (us : List Use) :
    ∃ σ2, E.apply sem (history sem E σ0 us) l = (σ2, .ok ()) ∧
      ∀ key, E.value σ0 key r true ≠ .ok (.num none) →
        ∀ r' s', E.value σ2 key r' s' = E.value σ0 key r' s' :=
  C36_restore_partial sem hi E hE hR σ0 _ h0 (typed_history hi hE us h0) r l hl

/-- C36 in full fails: a channel that is NaN is left out of the export, so it keeps what it was set
to since. -/
theorem C36_nan_fails (sem : Sem) (σ0 : State) (n : String) (c : Chan) (E : Env)
    (hn : E.names.reverse = [(n, 1)]) (hc : dget E.chans n = some c) (hf : dget E.fields n = none)
    (he : c.enum = none) (hs : (E.prim c.slot).scaling = []) (hv : σ0 c.slot = .num none) (r : Bool)
    (σ1 : State) :
    E.values σ0 r = .ok [] ∧ E.apply sem σ1 [] = (σ1, .ok ())
    ∧ ∀ q, σ1 c.slot = .num (some q) → E.value σ1 (.name n) r true ≠ E.value σ0 (.name n) r true := by
  have hname : E.names.nameOf (.name n) = some n := by
    simp [Mapping.nameOf, hn, dget_cons]
  have ht : E.target (.name n) = some (.chan c) := by
    simp [Env.target, Env.getField, Env.getChan, hname, hf, hc]
  have hval : E.value σ0 (.name n) r true = .ok (.num none) := by
    simp only [Env.value, ht, getChanValue, he, if_true, primScaled, hs, hv, PV.toCV]
  refine ⟨by simp [Env.values, hn, Env.valuesOf, hval, CV.exported], rfl, ?_⟩
  intro q hq
  rw [hval]
  simp [Env.value, ht, getChanValue, he, primScaled, hs, hq, PV.toCV]

/-- C36 in full fails: with a scaling of one term every value exports as that constant, and writing
it back stores zero. -/
theorem C36_constant_scaling_fails (sem : Sem) (E : Env) (key : Key Int) (c : Chan)
    (ht : E.target key = some (.chan c)) (k : IntKind) (hk : (E.prim c.slot).kind = .int k) (a : Rat)
    (hs : (E.prim c.slot).scaling = [a]) (x : Int) (σ0 σ : State) (hx : σ0 c.slot = .int x) :
    ∃ v, E.value σ0 key false true = .ok v ∧
      E.set sem σ key v true = .ok (σ.put c.slot (.int 0)) := by
  refine ⟨.num (some a), ?_, ?_⟩
  · simp [Env.value, ht, getChanValue_false, primScaled, hs, hx, PV.rat, Scaling.apply,
      Scaling.applyLoop]
  · have h0 : Wire.Spec.lo k ≤ 0 ∧ 0 ≤ Wire.Spec.hi k := by cases k <;> decide
    have hp : Scaling.pyRound 0 = 0 := by
      have := Scaling.pyRound_int 0
      simpa using this
    simp [Env.set, ht, setChan, assign, primInvert, hs, invertCV, CV.rat, Scaling.unscale, hk,
      Except.map, hp, clamp_in k 0 h0, store, wrap_in k 0 h0]

/-- C36 in full fails: with a scaling of three terms or more the exported value cannot be applied. -/
theorem C36_polynomial_fails (sem : Sem) (E : Env) (key : Key Int) (c : Chan)
    (ht : E.target key = some (.chan c)) (a b d : Rat) (rest : List Rat)
    (hs : (E.prim c.slot).scaling = a :: b :: d :: rest) (q : Option Rat) (σ : State) :
    E.set sem σ key (.num q) true = .error .assertion := by
  cases q <;>
    simp [Env.set, ht, setChan, assign, primInvert, hs, invertCV, CV.rat, Scaling.unscale, Except.map]

/-- C36 in full fails: a boolean channel with an integer enumeration exports a name that cannot be
applied. -/
theorem C36_bool_int_enum_fails (sem : Sem) (E : Env) (key : Key Int) (c : Chan)
    (ht : E.target key = some (.chan c)) (hk : (E.prim c.slot).kind = .bool) (m : Mapping Int)
    (he : c.enum = some (.ints m)) (s : String) (σ : State) :
    E.set sem σ key (.str s) true = .error .assertion := by
  simp [Env.set, ht, setChan, resolve, he, hk, Enum.getBool, Except.map]

/-! ### Concrete cases -/

example : ∀ n c, dget demoEnv.chans n = some c → Spec.Restorable demoEnv c := by
  intro n c hn
  have hm := dget_mem hn
  simp only [demoEnv, List.mem_cons, List.not_mem_nil, or_false, Prod.mk.injEq] at hm
  rcases hm with ⟨rfl, rfl⟩ | ⟨rfl, rfl⟩ | ⟨rfl, rfl⟩ | ⟨rfl, rfl⟩
  · exact ⟨Or.inl rfl, fun h => by cases h⟩
  · exact ⟨Or.inl rfl, fun _ m h => by cases h⟩
  · exact ⟨Or.inr ⟨1, 2, by decide, rfl⟩, fun h => by cases h⟩
  · exact ⟨Or.inl rfl, fun h => by cases h⟩

/-- Export, change three things, apply, export again. -/
example :
    demoEnv.values demoState true = .ok [("a", .str "off"), ("b", .bool false), ("x", .bool true),
      ("y", .int 2), ("s", .num (some 7)), ("d", .num (some (1 / 2)))]
    ∧ (let l := [("a", CV.str "off"), ("b", .bool false), ("x", .bool true),
      ("y", .int 2), ("s", .num (some 7)), ("d", .num (some (1 / 2)))]
      let σ1 := history demoSem demoEnv demoState
        [.set (.name "a") (.str "on") true, .toggle (.name "x"), .set (.id 5) (.int 0) true,
          .set (.id 4) (.int 6) true]
      demoEnv.values σ1 true ≠ .ok l ∧
      demoEnv.values (demoEnv.apply demoSem σ1 l).1 true = .ok l) := by
  decide +kernel

end Verif.Environment
