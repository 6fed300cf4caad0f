import Verif.Env.Model
import Verif.Bits.Props
import Verif.Registry.Props
import Verif.Scaling.Props
import Verif.Wire.Props
/-!
C35: setting and reading channels and bit fields of an environment.
-/
namespace Verif.Environment

open Verif.Wire Verif.Registry

namespace Spec

/-- A stored value of a kind. -/
def Fits (sem : Sem) : SKind → PV → Prop
  | .int k, .int v => Wire.Spec.lo k ≤ v ∧ v ≤ Wire.Spec.hi k
  | .bool, .bool _ => True
  | .float, .num none => True
  | .float, .num (some q) => sem.rnd q = q
  | _, _ => False

/-- Every primitive stores a value of its kind. -/
def Typed (sem : Sem) (E : Env) (σ : State) : Prop := ∀ j, Fits sem (E.prim j).kind (σ j)

/-- The two directions of an enumeration agree (C16 for every enumeration that could be built). -/
def EnumOk : Enum → Prop
  | .ints m => Registry.Spec.Bij m
  | .bools m => Registry.Spec.Bij m

/-- Storage in a float is a projection. -/
def Idem (sem : Sem) : Prop := ∀ q, sem.rnd (sem.rnd q) = sem.rnd q

/-- What construction guarantees of an environment: a consistent name registry (C17), consistent
enumerations (C16), fields inside an integer primitive (C13). -/
structure WF (E : Env) : Prop where
  names : Registry.Spec.Bij E.names
  chanEnum : ∀ n c e, dget E.chans n = some c → c.enum = some e → EnumOk e
  fieldEnum : ∀ n f e, dget E.fields n = some f → f.enum = some e → EnumOk e
  inside : ∀ n f, dget E.fields n = some f →
    ∃ k, (E.prim f.slot).kind = .int k ∧ f.index + f.width ≤ k.bits

/-- The bits of storage belonging to a channel (its whole primitive) or field. -/
def Owns : Target → Nat → Nat → Prop
  | .chan c, slot, _ => slot = c.slot
  | .field f, slot, b => slot = f.slot ∧ Bits.Spec.Covers f.index f.width b

/-- No bit of storage belongs to both. -/
def Apart (t t' : Target) : Prop := ∀ slot b, ¬ (Owns t slot b ∧ Owns t' slot b)

end Spec

/-! ### Basics -/

theorem put_self (σ : State) (j : Nat) (v : PV) : σ.put j v j = v := by simp [State.put]

theorem put_ne (σ : State) {j j' : Nat} (v : PV) (h : j' ≠ j) : σ.put j v j' = σ j' := by
  simp [State.put, h]

theorem target_field {E : Env} {key : Key Int} {f : FieldE} (h : E.target key = some (.field f)) :
    ∃ n, E.names.nameOf key = some n ∧ dget E.fields n = some f := by
  unfold Env.target at h
  cases hf : E.getField key with
  | some g =>
    rw [hf] at h
    simp only [Option.some.injEq, Target.field.injEq] at h
    subst h
    unfold Env.getField at hf
    cases hn : E.names.nameOf key with
    | none => rw [hn] at hf; cases hf
    | some n => rw [hn] at hf; exact ⟨n, rfl, hf⟩
  | none =>
    rw [hf] at h
    cases hc : E.getChan key <;> rw [hc] at h <;> cases h

theorem target_chan {E : Env} {key : Key Int} {c : Chan} (h : E.target key = some (.chan c)) :
    ∃ n, E.names.nameOf key = some n ∧ dget E.fields n = none ∧ dget E.chans n = some c := by
  unfold Env.target at h
  cases hf : E.getField key with
  | some g => rw [hf] at h; cases h
  | none =>
    rw [hf] at h
    cases hc : E.getChan key with
    | none => rw [hc] at h; cases h
    | some d =>
      rw [hc] at h
      simp only [Option.map_some, Option.some.injEq, Target.chan.injEq] at h
      subst h
      unfold Env.getChan at hc
      unfold Env.getField at hf
      cases hn : E.names.nameOf key with
      | none => rw [hn] at hc; cases hc
      | some n => rw [hn] at hc hf; exact ⟨n, rfl, hf, hc⟩

theorem WF.field {E : Env} (h : Spec.WF E) {key : Key Int} {f : FieldE}
    (ht : E.target key = some (.field f)) :
    ∃ k, (E.prim f.slot).kind = .int k ∧ f.index + f.width ≤ k.bits := by
  obtain ⟨n, -, hn⟩ := target_field ht
  exact h.inside n f hn

/-- The stored integer of the primitive of a field. -/
theorem typed_int {sem : Sem} {E : Env} {σ : State} (h : Spec.Typed sem E σ) {j : Nat} {k : IntKind}
    (hk : (E.prim j).kind = .int k) :
    ∃ v, σ j = .int v ∧ Wire.Spec.lo k ≤ v ∧ v ≤ Wire.Spec.hi k := by
  have := h j
  rw [hk] at this
  cases hv : σ j with
  | int v => rw [hv] at this; exact ⟨v, rfl, this⟩
  | bool b => rw [hv] at this; exact absurd this id
  | num q => rw [hv] at this; exact absurd this id

theorem raw_int (v : Int) : (PV.int v).raw = v := rfl

/-- What a field reads after writing it. -/
theorem read_put {E : Env} {f : FieldE} {k : IntKind} (hk : (E.prim f.slot).kind = .int k)
    (hin : f.index + f.width ≤ k.bits) (σ : State) (v : Int) :
    Bits.readField (putField E σ f v f.slot).raw f.index f.width = v % 2 ^ f.width := by
  rw [putField, put_self, raw_int, hk]
  exact (Bits.C11_write_read k (σ f.slot).raw f.index f.width v hin).2.1

theorem read_other (k : IntKind) (x : Int) (i w i' w' : Nat) (v : Int) (h : i + w ≤ k.bits)
    (h' : i' + w' ≤ k.bits)
    (hd : ∀ b, ¬ (Bits.Spec.Covers i w b ∧ Bits.Spec.Covers i' w' b)) :
    Bits.readField (Bits.writeField k x i w v).1 i' w' = Bits.readField x i' w' := by
  rw [Bits.readField_patt _ i' w' k.bits h', Bits.readField_patt x i' w' k.bits h',
    Bits.writeField_patt k x i w v (Or.inr h),
    Bits.read_setBits_other _ _ _ _ _ _ (fun b h1 h2 h3 => hd b ⟨h3, h1, h2⟩)]

/-- A write that does not change any bit of a stored integer stores the same integer. -/
theorem write_same (k : IntKind) (x : Int) (i w : Nat) (v : Int) (h : i + w ≤ k.bits)
    (y : Int)
    (hy : Wire.Spec.lo k ≤ y ∧ y ≤ Wire.Spec.hi k)
    (hb : ∀ j, j < k.bits → ¬ Bits.Spec.Covers i w j → (Bits.Spec.bit x j ↔ Bits.Spec.bit y j))
    (hv : ∀ j, j < w → (Bits.Spec.bit v j ↔ Bits.Spec.bit y (i + j))) :
    (Bits.writeField k x i w v).1 = y := by
  apply Bits.patt_inj k _ _ (Bits.writeField_packable _ _ _ _ _) ((packable_iff k y).mpr hy)
  apply Nat.eq_of_testBit_eq
  intro j
  rw [Bits.testBit_patt, Bits.testBit_patt]
  by_cases hj : j < k.bits
  · simp only [hj, decide_true, Bool.true_and]
    rw [Bool.eq_iff_iff, ← Bits.bit_iff, ← Bits.bit_iff]
    by_cases hc : Bits.Spec.Covers i w j
    · obtain ⟨h1, h2⟩ := hc
      have e : j = i + (j - i) := by omega
      rw [e, Bits.C11_write_bits k x i w v h (j - i) (by omega)]
      exact hv _ (by omega)
    · rw [(Bits.C11_write_read k x i w v h).2.2.1 j hj hc]
      exact hb j hj hc
  · simp [hj]

/-- What setting does to the storage: only the primitive of the target is assigned. -/
theorem set_ok {sem : Sem} {E : Env} {σ σ' : State} {key : Key Int} {v : CV} {scaled : Bool}
    (h : E.set sem σ key v scaled = .ok σ') :
    (∃ f n, E.target key = some (.field f) ∧ fieldInt sem f v = .ok n ∧ σ' = putField E σ f n)
    ∨ (∃ c u w, E.target key = some (.chan c) ∧ assign sem (E.prim c.slot) u scaled = .ok w
        ∧ σ' = σ.put c.slot w) := by
  unfold Env.set at h
  cases ht : E.target key with
  | none => rw [ht] at h; cases h
  | some t =>
    rw [ht] at h
    cases t with
    | field f =>
      left
      simp only [setField] at h
      cases hf : fieldInt sem f v with
      | error e => rw [hf] at h; cases h
      | ok n =>
        rw [hf] at h
        simp only [Except.map, Except.ok.injEq] at h
        exact ⟨f, n, rfl, hf, h.symm⟩
    | chan c =>
      right
      simp only [setChan] at h
      split at h
      · cases h
      · rename_i u hu
        cases ha : assign sem (E.prim c.slot) u scaled with
        | error e => rw [ha] at h; cases h
        | ok w =>
          rw [ha] at h
          simp only [Except.ok.injEq] at h
          exact ⟨c, u, w, rfl, ha, h.symm⟩

theorem store_fits {sem : Sem} (hi : Spec.Idem sem) {kind : SKind} {v : CV} {w : PV}
    (h : store sem kind v = .ok w) : Spec.Fits sem kind w := by
  unfold store at h
  split at h <;> first | (cases h; done) | skip
  all_goals
    simp only [Except.ok.injEq] at h
    subst h
  · exact (packable_iff _ _).mp (wrap_packable _ _)
  · exact (packable_iff _ _).mp (wrap_packable _ _)
  · trivial
  · trivial
  · trivial
  · trivial
  · exact hi _
  · exact hi _
  · rename_i q
    cases q with
    | none => trivial
    | some q => exact hi _

theorem assign_fits {sem : Sem} (hi : Spec.Idem sem) {p : Prim} {v : CV} {scaled : Bool} {w : PV}
    (h : assign sem p v scaled = .ok w) : Spec.Fits sem p.kind w := by
  unfold assign at h
  split at h
  · split at h
    · exact store_fits hi h
    · cases h
  · exact store_fits hi h

/-- Setting keeps every primitive well typed. -/
theorem typed_set {sem : Sem} (hi : Spec.Idem sem) {E : Env} (hE : Spec.WF E) {σ σ' : State}
    (hσ : Spec.Typed sem E σ) {key : Key Int} {v : CV} {scaled : Bool}
    (h : E.set sem σ key v scaled = .ok σ') : Spec.Typed sem E σ' := by
  rcases set_ok h with ⟨f, n, ht, -, rfl⟩ | ⟨c, u, w, -, ha, rfl⟩
  · obtain ⟨k, hk, -⟩ := WF.field hE ht
    intro j
    by_cases hj : j = f.slot
    · subst hj
      rw [putField, put_self, hk]
      exact (packable_iff _ _).mp (Bits.writeField_packable _ _ _ _ _)
    · rw [putField, put_ne _ _ hj]; exact hσ j
  · intro j
    by_cases hj : j = c.slot
    · subst hj; rw [put_self]; exact assign_fits hi ha
    · rw [put_ne _ _ hj]; exact hσ j

/-! ### C35 -/

/-- Two stores that agree on what a target owns give the same value for it. -/
theorem value_congr {sem : Sem} {E : Env} {σ σ' : State} {t : Target}
    (h : match t with
      | .chan c => σ' c.slot = σ c.slot
      | .field f => Bits.readField (σ' f.slot).raw f.index f.width
          = Bits.readField (σ f.slot).raw f.index f.width)
    {key : Key Int} (ht : E.target key = some t) (r s : Bool) :
    E.value σ' key r s = E.value σ key r s := by
  have _ := sem
  unfold Env.value
  rw [ht]
  cases t with
  | chan c => simp only at h ⊢; unfold getChanValue; rw [h]
  | field f => simp only at h ⊢; unfold getFieldValue; rw [h]

/-- C35. Nothing unrelated changes: whatever is set through one key, the value (raw or scaled,
with enumerations resolved or not) read through every key whose channel or field shares no bit of
storage with it is the same as before. -/
theorem C35_frame (sem : Sem) (E : Env) (hE : Spec.WF E) (σ σ' : State) (hσ : Spec.Typed sem E σ)
    (key key' : Key Int) (t t' : Target) (ht : E.target key = some t) (ht' : E.target key' = some t')
    (hd : Spec.Apart t t') (v : CV) (scaled : Bool) (h : E.set sem σ key v scaled = .ok σ')
    (r s : Bool) : E.value σ' key' r s = E.value σ key' r s := by
  apply value_congr (sem := sem) _ ht'
  rcases set_ok h with ⟨f, n, hf, -, rfl⟩ | ⟨c, u, w, hc, ha, rfl⟩
  · rw [ht] at hf
    cases hf
    obtain ⟨k, hk, hin⟩ := WF.field hE ht
    obtain ⟨x, hx, hr⟩ := typed_int hσ hk
    cases t' with
    | chan c =>
      simp only
      by_cases hj : c.slot = f.slot
      · have hw : f.width = 0 := by
          by_contra hne
          exact hd f.slot f.index ⟨⟨rfl, by constructor <;> omega⟩, hj.symm⟩
        rw [putField, hj, put_self, hx, hk]
        simp only [PV.raw, SKind.intKind, PV.int.injEq]
        apply write_same k x _ _ _ hin x hr (fun _ _ _ => Iff.rfl)
        intro j hj; omega
      · rw [putField, put_ne _ _ hj]
    | field g =>
      simp only
      by_cases hj : g.slot = f.slot
      · obtain ⟨k', hk', hin'⟩ := WF.field hE ht'
        rw [hj, hk] at hk'
        cases hk'
        rw [putField, hj, put_self, hx, hk]
        simp only [PV.raw, SKind.intKind]
        apply read_other k x _ _ _ _ _ hin hin'
        intro b hb
        exact hd f.slot b ⟨⟨rfl, hb.1⟩, hj.symm, hb.2⟩
      · rw [putField, put_ne _ _ hj]
  · rw [ht] at hc
    cases hc
    cases t' with
    | chan d =>
      simp only
      have hj : d.slot ≠ c.slot := fun e => hd c.slot 0 ⟨rfl, e.symm⟩
      rw [put_ne _ _ hj]
    | field g =>
      simp only
      by_cases hj : g.slot = c.slot
      · have hw : g.width = 0 := by
          by_contra hne
          exact hd c.slot g.index ⟨rfl, hj.symm, by constructor <;> omega⟩
        have hz : ∀ y : Int, Bits.readField y g.index g.width = 0 := by
          intro y
          have := Bits.C11_read_value y g.index g.width
          rw [hw] at this ⊢
          omega
        rw [hz, hz]
      · rw [put_ne _ _ hj]

/-- C35. A name and its identifier are the same key for setting and for reading. -/
theorem C35_name_or_id (sem : Sem) (E : Env) (hE : Spec.WF E) (n : String) (i : Int)
    (h : E.names.identifier (.name n) = some i) (σ : State) (v : CV) (r s : Bool) :
    E.set sem σ (.id i) v s = E.set sem σ (.name n) v s
    ∧ E.value σ (.id i) r s = E.value σ (.name n) r s := by
  have h1 : E.names.nameOf (.id i) = some n := (hE.names i n).mpr h
  have h2 : E.names.nameOf (.name n) = some n := nameOf_name h
  have ht : E.target (.id i) = E.target (.name n) := by
    simp only [Env.target, Env.getField, Env.getChan, h1, h2]
  simp only [Env.set, Env.value, ht, and_self]

/-- C35. An unknown key is refused, both ways. -/
theorem C35_unknown (sem : Sem) (E : Env) (key : Key Int)
    (h : ∀ n, E.names.nameOf key = some n → dget E.fields n = none ∧ dget E.chans n = none)
    (σ : State) (v : CV) (r s : Bool) :
    E.set sem σ key v s = .error .key ∧ E.value σ key r s = .error .key := by
  have ht : E.target key = none := by
    simp only [Env.target, Env.getField, Env.getChan]
    cases hn : E.names.nameOf key with
    | none => rfl
    | some n =>
      obtain ⟨h1, h2⟩ := h n hn
      simp [h1, h2]
  simp [Env.set, Env.value, ht]

theorem getFieldValue_false (σ : State) (f : FieldE) :
    getFieldValue σ f false = .ok (if f.width = 1 then
        .bool (decide (Bits.readField (σ f.slot).raw f.index f.width ≠ 0))
      else .int (Bits.readField (σ f.slot).raw f.index f.width)) := by
  unfold getFieldValue
  cases f.enum <;> rfl

/-- C35. Setting a field to an integer: it then reads as that integer modulo two to the power of
its width (a truth value when it is one bit wide). -/
theorem C35_field_int (sem : Sem) (E : Env) (hE : Spec.WF E) (σ : State) (key : Key Int) (f : FieldE)
    (ht : E.target key = some (.field f)) (v : Int) (scaled s : Bool) :
    ∃ σ', E.set sem σ key (.int v) scaled = .ok σ' ∧
      E.value σ' key false s = .ok (if f.width = 1 then .bool (decide (v % 2 = 1))
        else .int (v % 2 ^ f.width)) := by
  obtain ⟨k, hk, hin⟩ := WF.field hE ht
  refine ⟨putField E σ f v, by simp [Env.set, ht, setField, fieldInt, Except.map], ?_⟩
  simp only [Env.value, ht, getFieldValue_false, read_put hk hin]
  by_cases hw : f.width = 1
  · rw [if_pos hw, if_pos hw, hw]
    have : (v % 2 ^ 1 ≠ 0) ↔ (v % 2 = 1) := by omega
    simp only [this]
  · rw [if_neg hw, if_neg hw]

/-- C35. A field refuses floats. -/
theorem C35_field_float (sem : Sem) (E : Env) (σ : State) (key : Key Int) (f : FieldE)
    (ht : E.target key = some (.field f)) (q : Option Rat) (scaled : Bool) :
    E.set sem σ key (.num q) scaled = .error .assertion := by
  simp [Env.set, ht, setField, fieldInt, Except.map]

theorem getInt_name {sem : Sem} {m : Mapping Int} {s : String} {i : Int}
    (h : m.identifier (.name s) = some i) : Enum.getInt sem (.ints m) s = .ok i := by
  simp [Enum.getInt, Registry.getInt, asInt, h]

theorem getStr_id {K : Type} [DecidableEq K] {m : Mapping K} (hb : Registry.Spec.Bij m) {s : String}
    {i : K} (h : m.identifier (.name s) = some i) : Registry.getStr m (.id i) = .ok s := by
  simp [Registry.getStr, (hb i s).mpr h]

/-- C35. Setting an enumerated field to one of the names: it reads back as that name, and as the
name's integer when enumerations are not resolved. -/
theorem C35_field_enum (sem : Sem) (E : Env) (hE : Spec.WF E) (σ : State) (key : Key Int) (f : FieldE)
    (ht : E.target key = some (.field f)) (m : Mapping Int) (hm : f.enum = some (.ints m))
    (name : String) (i : Int) (hi : m.identifier (.name name) = some i) (h0 : 0 ≤ i)
    (h1 : i < 2 ^ f.width) (scaled s : Bool) :
    ∃ σ', E.set sem σ key (.str name) scaled = .ok σ' ∧
      E.value σ' key true s = .ok (.str name) ∧
      E.value σ' key false s = .ok (if f.width = 1 then .bool (decide (i = 1)) else .int i) := by
  obtain ⟨n, -, hn⟩ := target_field ht
  have hb : Registry.Spec.Bij m := hE.fieldEnum n f _ hn hm
  obtain ⟨k, hk, hin⟩ := WF.field hE ht
  have he : i % 2 ^ f.width = i := Int.emod_eq_of_lt h0 h1
  have hr : Bits.readField (putField E σ f i f.slot).raw f.index f.width = i := by
    rw [read_put hk hin, he]
  refine ⟨putField E σ f i, ?_, ?_, ?_⟩
  · simp [Env.set, ht, setField, fieldInt, hm, getInt_name hi, Except.map]
  · simp only [Env.value, ht, getFieldValue, hr, hm, Enum.getStr, CV.eqInt, getStr_id hb hi, Except.map]
  · simp only [Env.value, ht, getFieldValue, hr, hm]
    by_cases hw : f.width = 1
    · rw [if_pos hw, if_pos hw]
      rw [hw] at h1
      have : (i ≠ 0) ↔ (i = 1) := by omega
      simp only [this]
    · rw [if_neg hw, if_neg hw]

theorem clamp_in (k : IntKind) (v : Int) (h : Wire.Spec.lo k ≤ v ∧ v ≤ Wire.Spec.hi k) :
    k.bounds.clamp v = v := by
  have hlh : Wire.Spec.lo k ≤ Wire.Spec.hi k := Int.le_trans h.1 h.2
  rw [C08_bounds]
  exact (C08_clamp_nearest ⟨Wire.Spec.lo k, Wire.Spec.hi k⟩ hlh v).2.1 h

theorem clamp_range (k : IntKind) (v : Int) :
    Wire.Spec.lo k ≤ k.bounds.clamp v ∧ k.bounds.clamp v ≤ Wire.Spec.hi k := by
  have hlh : Wire.Spec.lo k ≤ Wire.Spec.hi k := by cases k <;> decide
  rw [C08_bounds]
  exact (C08_clamp_nearest ⟨Wire.Spec.lo k, Wire.Spec.hi k⟩ hlh v).1

theorem wrap_in (k : IntKind) (v : Int) (h : Wire.Spec.lo k ≤ v ∧ v ≤ Wire.Spec.hi k) :
    wrap k v = v := wrap_of_packable k v ((packable_iff k v).mpr h)

theorem getChanValue_false (E : Env) (σ : State) (c : Chan) (s : Bool) :
    getChanValue E σ c false s =
      .ok (if s then primScaled (E.prim c.slot) (σ c.slot) else (σ c.slot).toCV) := by
  unfold getChanValue
  cases c.enum <;> rfl

/-- C35. Setting an unscaled integer channel to an integer: it reads back as that integer when in
the range of the type. Outside it the ordinary setter saturates to the nearest end; the raw setter
keeps the integer modulo two to the power of the width. -/
theorem C35_channel_int (sem : Sem) (E : Env) (σ : State) (key : Key Int) (c : Chan)
    (ht : E.target key = some (.chan c)) (k : IntKind) (hk : (E.prim c.slot).kind = .int k)
    (hs : (E.prim c.slot).scaling = []) (v : Int) (scaled s : Bool) :
    ∃ σ' u, E.set sem σ key (.int v) scaled = .ok σ' ∧ E.value σ' key false s = .ok (.int u)
      ∧ Wire.Spec.lo k ≤ u ∧ u ≤ Wire.Spec.hi k
      ∧ (Wire.Spec.lo k ≤ v ∧ v ≤ Wire.Spec.hi k → u = v)
      ∧ (scaled = true → v < Wire.Spec.lo k → u = Wire.Spec.lo k)
      ∧ (scaled = true → Wire.Spec.hi k < v → u = Wire.Spec.hi k)
      ∧ (scaled = false → u % 2 ^ k.bits = v % 2 ^ k.bits) := by
  have hval : ∀ w : Int, E.value (σ.put c.slot (.int w)) key false s = .ok (.int w) := by
    intro w
    simp only [Env.value, ht, getChanValue_false, put_self, primScaled, hs, PV.toCV, ite_self]
  cases scaled with
  | false =>
    refine ⟨σ.put c.slot (.int (wrap k v)), wrap k v, ?_, hval _, ?_, ?_, ?_, ?_, ?_, ?_⟩
    · simp [Env.set, ht, setChan, assign, hk, store]
    · exact ((packable_iff _ _).mp (wrap_packable _ _)).1
    · exact ((packable_iff _ _).mp (wrap_packable _ _)).2
    · exact wrap_in k v
    · intro h; cases h
    · intro h; cases h
    · intro _; exact wrap_emod k v
  | true =>
    have hr := clamp_range k v
    have e : Scaling.pyRound ((v : Int) : Rat) = v := Scaling.pyRound_int v
    have hlh : Wire.Spec.lo k ≤ Wire.Spec.hi k := Int.le_trans hr.1 hr.2
    have hc := C08_clamp_nearest ⟨Wire.Spec.lo k, Wire.Spec.hi k⟩ hlh v
    refine ⟨σ.put c.slot (.int (k.bounds.clamp v)), k.bounds.clamp v, ?_, hval _, hr.1, hr.2,
      clamp_in k v, ?_, ?_, ?_⟩
    · simp only [Env.set, ht, setChan, assign, primInvert, hs, invertCV, hk, CV.rat, e, store,
        wrap_in k _ hr, if_true]
    · intro _ h
      rw [C08_bounds]
      simp only [IntegerBounds.clamp]
      omega
    · intro _ h
      rw [C08_bounds]
      simp only [IntegerBounds.clamp]
      omega
    · intro h; cases h

/-- C35. Setting a boolean channel to a truth value, by name or number, unscaled. -/
theorem C35_channel_bool (sem : Sem) (E : Env) (σ : State) (key : Key Int) (c : Chan)
    (ht : E.target key = some (.chan c)) (hk : (E.prim c.slot).kind = .bool)
    (hs : (E.prim c.slot).scaling = []) (b : Bool) (scaled s : Bool) :
    ∃ σ', E.set sem σ key (.bool b) scaled = .ok σ' ∧ E.value σ' key false s = .ok (.bool b) := by
  refine ⟨σ.put c.slot (.bool b), ?_, ?_⟩
  · cases scaled <;> simp [Env.set, ht, setChan, assign, primInvert, hs, invertCV, hk, store]
  · simp only [Env.value, ht, getChanValue_false, put_self, primScaled, hs, PV.toCV, ite_self]

/-- C35. Setting an unscaled float channel: it reads back as the number rounded to the type. -/
theorem C35_channel_float (sem : Sem) (E : Env) (σ : State) (key : Key Int) (c : Chan)
    (ht : E.target key = some (.chan c)) (hk : (E.prim c.slot).kind = .float)
    (hs : (E.prim c.slot).scaling = []) (q : Option Rat) (scaled s : Bool) :
    ∃ σ', E.set sem σ key (.num q) scaled = .ok σ' ∧
      E.value σ' key false s = .ok (.num (q.map sem.rnd)) := by
  refine ⟨σ.put c.slot (.num (q.map sem.rnd)), ?_, ?_⟩
  · cases scaled <;> simp [Env.set, ht, setChan, assign, primInvert, hs, invertCV, hk, store]
  · simp only [Env.value, ht, getChanValue_false, put_self, primScaled, hs, PV.toCV, ite_self]

/-- C35. Setting a linearly scaled integer channel (any number): the scaled value read back is the
nearest one that the type can represent, and the number itself when it can represent it. -/
theorem C35_channel_scaled (sem : Sem) (E : Env) (σ : State) (key : Key Int) (c : Chan)
    (ht : E.target key = some (.chan c)) (k : IntKind) (hk : (E.prim c.slot).kind = .int k)
    (a b : Rat) (hb : b ≠ 0) (hs : (E.prim c.slot).scaling = [a, b]) (q : Rat) :
    ∃ σ' u, E.set sem σ key (.num (some q)) true = .ok σ'
      ∧ E.value σ' key false true = .ok (.num (some u))
      ∧ (∀ w : Int, Wire.Spec.lo k ≤ w → w ≤ Wire.Spec.hi k → |u - q| ≤ |a + b * w - q|)
      ∧ (∀ w : Int, Wire.Spec.lo k ≤ w → w ≤ Wire.Spec.hi k → q = a + b * w → u = q) := by
  obtain ⟨r, hr, h1, h2, hbest, -⟩ := Scaling.C07_scaled_set_best k a b q hb
  have hinv : primInvert (E.prim c.slot) (.num (some q)) = .ok (.int r) := by
    simp only [Scaling.invertInt] at hr
    simp only [primInvert, hs, invertCV, CV.rat, hk]
    cases hu : Scaling.unscale q [a, b] with
    | error e => rw [hu] at hr; cases hr
    | ok z =>
      rw [hu] at hr
      simp only [Except.map, Except.ok.injEq] at hr ⊢
      rw [hr]
  refine ⟨σ.put c.slot (.int r), Scaling.apply r [a, b], ?_, ?_, ?_, ?_⟩
  · simp only [Env.set, ht, setChan, assign, hinv, hk, store, wrap_in k r ⟨h1, h2⟩, if_true]
  · simp only [Env.value, ht, getChanValue_false, put_self, primScaled, hs, PV.rat, if_true]
  · intro w hw1 hw2
    have := hbest w hw1 hw2
    rw [Scaling.apply_two (w : Rat), mul_comm] at this
    exact this
  · intro w hw1 hw2 hq
    have := hbest w hw1 hw2
    rw [Scaling.apply_two (w : Rat), mul_comm (w : Rat) b, ← hq, sub_self, abs_zero] at this
    have h0 := abs_nonpos_iff.mp this
    linarith

/-- C35. Setting an enumerated integer channel to one of the names: it reads back as the name, and
as the name's integer when enumerations are not resolved. -/
theorem C35_channel_enum (sem : Sem) (E : Env) (hE : Spec.WF E) (σ : State) (key : Key Int) (c : Chan)
    (ht : E.target key = some (.chan c)) (k : IntKind) (hk : (E.prim c.slot).kind = .int k)
    (hs : (E.prim c.slot).scaling = []) (m : Mapping Int) (hm : c.enum = some (.ints m))
    (name : String) (i : Int) (hi : m.identifier (.name name) = some i)
    (hr : Wire.Spec.lo k ≤ i ∧ i ≤ Wire.Spec.hi k) (scaled s : Bool) :
    ∃ σ', E.set sem σ key (.str name) scaled = .ok σ' ∧ E.value σ' key true s = .ok (.str name)
      ∧ E.value σ' key false s = .ok (.int i) := by
  obtain ⟨n, -, -, hn⟩ := target_chan ht
  have hb : Registry.Spec.Bij m := hE.chanEnum n c _ hn hm
  have e : Scaling.pyRound ((i : Int) : Rat) = i := Scaling.pyRound_int i
  refine ⟨σ.put c.slot (.int i), ?_, ?_, ?_⟩
  · cases scaled <;>
      simp [Env.set, ht, setChan, resolve, hm, hk, getInt_name hi, Except.map, assign,
        primInvert, hs, invertCV, CV.rat, e, clamp_in k i hr, store, wrap_in k i hr]
  · simp only [Env.value, ht, getChanValue, put_self, primScaled, hs, PV.toCV, hm, ite_self,
      Enum.getStr, CV.eqInt, getStr_id hb hi, Except.map]
  · simp only [Env.value, ht, getChanValue_false, put_self, primScaled, hs, PV.toCV, ite_self]

/-- C35. Setting an enumerated boolean channel to one of the names. -/
theorem C35_channel_bool_enum (sem : Sem) (E : Env) (hE : Spec.WF E) (σ : State) (key : Key Int)
    (c : Chan) (ht : E.target key = some (.chan c)) (hk : (E.prim c.slot).kind = .bool)
    (hs : (E.prim c.slot).scaling = []) (m : Mapping Bool) (hm : c.enum = some (.bools m))
    (name : String) (b : Bool) (hi : m.identifier (.name name) = some b) (scaled s : Bool) :
    ∃ σ', E.set sem σ key (.str name) scaled = .ok σ' ∧ E.value σ' key true s = .ok (.str name)
      ∧ E.value σ' key false s = .ok (.bool b) := by
  obtain ⟨n, -, -, hn⟩ := target_chan ht
  have hb : Registry.Spec.Bij m := hE.chanEnum n c _ hn hm
  have hg : Enum.getBool sem (.bools m) name = .ok b := by
    simp [Enum.getBool, Registry.getBool, asBool, hi]
  have hstr := getStr_id hb hi
  refine ⟨σ.put c.slot (.bool b), ?_, ?_, ?_⟩
  · cases scaled <;>
      simp [Env.set, ht, setChan, resolve, hm, hk, hg, Except.map, assign,
        primInvert, hs, invertCV, store]
  · simp only [Env.value, ht, getChanValue, put_self, primScaled, hs, PV.toCV, hm, ite_self,
      Enum.getStr, CV.eqInt]
    cases b <;> simp [hstr, Except.map]
  · simp only [Env.value, ht, getChanValue_false, put_self, primScaled, hs, PV.toCV, ite_self]

/-- C35. A decimal string sets an unscaled integer channel without enumeration exactly as the
integer it denotes; a string denoting none is refused with `ValueError`. -/
theorem C35_channel_text (sem : Sem) (E : Env) (σ : State) (key : Key Int) (c : Chan)
    (ht : E.target key = some (.chan c)) (k : IntKind) (hk : (E.prim c.slot).kind = .int k)
    (hs : (E.prim c.slot).scaling = []) (he : c.enum = none) (s : String) (scaled : Bool) :
    (∀ v, sem.parseInt s = some v →
      E.set sem σ key (.str s) scaled = E.set sem σ key (.int v) scaled)
    ∧ (sem.parseInt s = none → E.set sem σ key (.str s) scaled = .error .value) := by
  constructor
  · intro v hv
    simp [Env.set, ht, setChan, resolve, he, hk, hs, hv]
  · intro hv
    simp [Env.set, ht, setChan, resolve, he, hk, hs, hv]

/-- C35 in full fails for a field with a key that is also the name of a channel: setting goes to the
field, while the commandable flag and toggling (`field_or_channel`) use the channel. -/
theorem C35_shadowed_fails (E : Env) (n : String) (c : Chan) (f : FieldE) (key : Key Int)
    (hn : E.names.nameOf key = some n) (hc : dget E.chans n = some c) (hf : dget E.fields n = some f) :
    E.target key = some (.field f) ∧ E.fieldOrChannel key = some (.chan c) := by
  simp [Env.target, Env.fieldOrChannel, Env.getField, Env.getChan, hn, hc, hf]

/-! ### A concrete environment -/

/-- Strings "1" and "true" only; identity storage. -/
def demoSem : Sem where
  parseInt := fun s => if s = "1" then some 1 else if s = "300" then some 300 else none
  parseFloat := fun s => if s = "1" then some (some 1) else none
  parseBool := fun s => if s = "true" then some true else if s = "false" then some false else none
  rnd := id

/-- Channel `a` : uint8 with an enumeration; `b` : bool; `x`, `y` : fields of one uint8; `s` : a
scaled int8; `d` : a double. -/
def demoEnv : Env where
  names := ⟨[(1, "a"), (2, "b"), (3, "x"), (4, "y"), (5, "s"), (6, "d")],
    [("a", 1), ("b", 2), ("x", 3), ("y", 4), ("s", 5), ("d", 6)], []⟩
  chans := [("a", ⟨0, some (.ints ⟨[(0, "off"), (7, "on")], [("off", 0), ("on", 7)], []⟩), true⟩),
    ("b", ⟨1, none, false⟩), ("s", ⟨3, none, true⟩), ("d", ⟨4, none, true⟩)]
  fields := [("x", ⟨2, 0, 1, none, true⟩), ("y", ⟨2, 1, 3, none, false⟩)]
  prim := fun j => match j with
    | 0 => ⟨.int .uint8, []⟩
    | 1 => ⟨.bool, []⟩
    | 2 => ⟨.int .uint8, []⟩
    | 3 => ⟨.int .int8, [1, 2]⟩
    | _ => ⟨.float, []⟩

def demoState : State := fun j => match j with
  | 0 => .int 0
  | 1 => .bool false
  | 2 => .int 5
  | 3 => .int 3
  | _ => .num (some (1 / 2))

example : Spec.Idem demoSem := fun _ => rfl

example : Spec.Typed demoSem demoEnv demoState := by
  intro j
  match j with
  | 0 => exact ⟨by decide, by decide⟩
  | 1 => trivial
  | 2 => exact ⟨by decide, by decide⟩
  | 3 => exact ⟨by decide, by decide⟩
  | j + 4 => exact rfl

theorem bij_of_lists {K : Type} [DecidableEq K] (m : Mapping K)
    (h1 : ∀ p ∈ m.mapping, dget m.reverse p.2 = some p.1)
    (h2 : ∀ p ∈ m.reverse, dget m.mapping p.2 = some p.1) : Registry.Spec.Bij m := by
  intro k n
  constructor
  · intro h
    exact h1 (k, n) (dget_mem h)
  · intro h
    exact h2 (n, k) (dget_mem h)

theorem demo_wf : Spec.WF demoEnv := by
  refine ⟨bij_of_lists _ (by decide) (by decide), ?_, ?_, ?_⟩
  · intro n c e hn he
    have hm := dget_mem hn
    simp only [demoEnv, List.mem_cons, List.not_mem_nil, or_false, Prod.mk.injEq] at hm
    rcases hm with ⟨rfl, rfl⟩ | ⟨rfl, rfl⟩ | ⟨rfl, rfl⟩ | ⟨rfl, rfl⟩
    · cases he
      exact bij_of_lists _ (by decide) (by decide)
    all_goals cases he
  · intro n c e hn he
    have hm := dget_mem hn
    simp only [demoEnv, List.mem_cons, List.not_mem_nil, or_false, Prod.mk.injEq] at hm
    rcases hm with ⟨rfl, rfl⟩ | ⟨rfl, rfl⟩ <;> cases he
  · intro n c hn
    have hm := dget_mem hn
    simp only [demoEnv, List.mem_cons, List.not_mem_nil, or_false, Prod.mk.injEq] at hm
    rcases hm with ⟨rfl, rfl⟩ | ⟨rfl, rfl⟩ <;> exact ⟨.uint8, rfl, by decide⟩

/-- Setting `y` to 13 by identifier: reads back 13 mod 8; `x` in the same primitive keeps its value;
setting `a` by name and by an out-of-range integer. -/
example :
    (demoEnv.set demoSem demoState (.id 4) (.int 13) true).toOption.map
        (fun σ => ((demoEnv.value σ (.name "y") true true, demoEnv.value σ (.name "x") true true) :
          Except PyErr CV × Except PyErr CV))
      = some (.ok (.int 5), .ok (.bool true))
    ∧ (demoEnv.set demoSem demoState (.name "a") (.str "on") true).toOption.map
        (fun σ => demoEnv.value σ (.id 1) true true) = some (.ok (.str "on"))
    ∧ (demoEnv.set demoSem demoState (.name "a") (.int 300) true).toOption.map
        (fun σ => demoEnv.value σ (.id 1) false true) = some (.ok (.int 255)) := by
  decide +kernel

end Verif.Environment
