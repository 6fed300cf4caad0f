import Verif.Protocol.Shadow
import Verif.Registry.Props
/-! C29: exporting a protocol to JSON and importing it again. -/
namespace Verif.Protocol

open Verif.Wire Verif.Serial Verif.Registry

/-! ### Enumerations -/

theorem enterAll_enums (env : Env) (P : Enum → Prop) (hP : ∀ key e, env.enums key = some e → P e) (idx : Nat)
    (fs : List (String × Bits.Field)) (t : List (String × Nat) × List (String × Enum)) (ht : ∀ e ∈ t.2, P e.2) :
    ∀ e ∈ (enterAll env idx fs t).2, P e.2 := by
  induction fs generalizing t with
  | nil => exact ht
  | cons x rest ih =>
    refine ih _ ?_
    dsimp only
    cases hb : x.2.enum.bind (fun key => env.enums (.id key)) with
    | none => exact ht
    | some e =>
      intro y hy
      rcases mem_dset hy with rfl | hy
      · obtain ⟨key, -, hk⟩ := Option.bind_eq_some_iff.mp hb
        exact hP _ _ hk
      · exact ht y hy

theorem steps_enums (env : Env) (P : Enum → Prop) (hP : ∀ key e, env.enums key = some e → P e) (ops : List BOp) (L : Lay)
    (h1 : ∀ e ∈ L.enumFields, P e.2) (h2 : ∀ e ∈ L.enumLookup, P e.2) :
    (∀ e ∈ (ops.foldl (Lay.step env) L).enumFields, P e.2) ∧ ∀ e ∈ (ops.foldl (Lay.step env) L).enumLookup, P e.2 := by
  induction ops generalizing L with
  | nil => exact ⟨h1, h2⟩
  | cons op r ih =>
    rw [List.foldl_cons]
    cases op with
    | serial n s => exact ih _ h1 h2
    | bits g => exact ih _ h1 (enterAll_enums env P hP _ _ _ h2)
    | field name kind enum len =>
      refine ih _ ?_ h2
      show ∀ e ∈ (match enum.bind env.enums with
        | none => L.enumFields
        | some e => dset L.enumFields name e), P e.2
      cases hb : enum.bind env.enums with
      | none => exact h1
      | some e =>
        intro y hy
        rcases mem_dset hy with rfl | hy
        · obtain ⟨key, -, hk⟩ := Option.bind_eq_some_iff.mp hb
          exact hP _ _ hk
        · exact h1 y hy

theorem getInt_getStr (parseInt : String → Option Int) (m : Mapping Int) (hb : Registry.Spec.Bij m) (v : Int) (s : String)
    (h : getStr m (.id v) = .ok s) : getInt parseInt m (.name s) = .ok v := by
  unfold getStr at h
  cases hn : m.nameOf (.id v) with
  | none => rw [hn] at h; cases h
  | some t =>
    rw [hn] at h
    cases h
    unfold getInt asInt
    rw [(hb v s).mp hn]

/-! ### One value -/

theorem readField_self (x : Int) (i w : Nat) : Bits.readField x i w % 2 ^ w = Bits.readField x i w := by
  rw [Bits.readField_arith, Int.emod_emod]

/-- A regular field shown. -/
def showVal : Option Enum → Val → Except PyErr PVal
  | none, v => .ok (.val v)
  | some e, .int v => (getStr e.map (.id v)).map .str
  | some _, _ => .error .key

theorem value_regular (w : World) (p : Proto) (n : String) (r : Nat) (h : dget p.regular n = some r) (res : Bool) :
    p.value w n res = showVal (if res then dget p.enumFields n else none) (w.heap.prim r).val := by
  unfold Proto.value
  rw [h]
  dsimp only
  cases (if res then dget p.enumFields n else none) <;> cases (w.heap.prim r).val <;> rfl

/-- A bit field shown. -/
def showBits (f : Bits.Field) (e : Option Enum) (res : Bool) (v : Int) : Except PyErr PVal :=
  if f.enum.isSome && res then
    match e with
    | none => .error .key
    | some e => (getStr e.map (.id v)).map .str
  else if f.width = 1 then .ok (.val (.bool (v ≠ 0)))
  else .ok (.val (.int v))

theorem getBits_eq (w : World) (p : Proto) (n : String) (g : BitGroup) (f : Bits.Field) (h : p.findBits w n = .ok (g, f)) (res : Bool) :
    p.getBits w n res = showBits f (dget p.enumLookup n) res (Bits.readField (intOf (w.heap.prim g.ref).val) f.index f.width) := by
  unfold Proto.getBits showBits
  rw [h]
  dsimp only
  cases dget p.enumLookup n <;> rfl

theorem import_one (env : Env) {u w : World} {q p : Proto} {L : Lay} {l l' : List Nat} (rq : Rep u q L l') (rp : Rep w p L l)
    (hf : ∀ e ∈ L.enumFields, Registry.Spec.Bij e.2.map) (he : ∀ e ∈ L.enumLookup, Registry.Spec.Bij e.2.map) (n : String) (v : PVal)
    (hs : dget L.serials n = none) (hv : p.value w n true = .ok v) :
    L.Fits n v ∧ (q.setItem env u n v).2 = .ok ()
      ∧ ∀ res, q.value (q.setItem env u n v).1 n res = p.value w n res := by
  cases hr : dget L.regular n with
  | some k =>
    have hkc := rp.lay.regular_lt _ (dget_mem hr)
    have ka := rp.kind k hkc
    have kb := rq.kind k hkc
    have hx := rp.core.ok.typed ((slots w.heap l).getD k 0)
    generalize ha : (slots w.heap l).getD k 0 = a at *
    generalize hb : (slots u.heap l').getD k 0 = b at *
    have hab : (w.heap.prim a).kind = (u.heap.prim b).kind := by
      rw [ka] at kb; exact Option.some.inj kb
    have hpv : ∀ res, p.value w n res = showVal (if res then dget L.enumFields n else none) (w.heap.prim a).val := by
      intro res
      rw [value_regular w p n a (by rw [rp.dget_regular, hr, Option.map_some, ha]), rp.core.enumFields]
    have hqv : ∀ (y : Val) res, q.value ⟨u.heap.setPrim b y, u.names⟩ n res
        = showVal (if res then dget L.enumFields n else none) (storeVal (w.heap.prim a).kind y) := by
      intro y res
      rw [value_regular _ q n b (by rw [rq.dget_regular, hr, Option.map_some, hb]), rq.core.enumFields]
      simp only [setPrim_self, hab]
    rw [hpv true, if_pos rfl] at hv
    have fits : ∀ (P : Kind → Prop), P (w.heap.prim a).kind → ∀ kind, (kindsOf L.shapes)[k]? = some kind → P kind := by
      intro P hP kind hk
      rw [ka] at hk
      rw [← Option.some.inj hk]; exact hP
    cases hef : dget L.enumFields n with
    | none =>
      rw [hef] at hv
      cases hv
      have hst := storeVal_of_hasKind hx
      refine ⟨?_, ?_, fun res => ?_⟩
      · unfold Lay.Fits
        rw [hr]
        exact fits (fun kind => Spec.HasKind kind (storeVal kind (w.heap.prim a).val)) (by rw [hst]; exact hx)
      · simp only [Proto.setItem, rq.dget_regular, hr, Option.map_some]
      · have : (q.setItem env u n (.val (w.heap.prim a).val)).1 = ⟨u.heap.setPrim b (w.heap.prim a).val, u.names⟩ := by
          simp only [Proto.setItem, rq.dget_regular, hr, Option.map_some, hb]
        rw [this, hqv, hpv, hst]
    | some e =>
      rw [hef] at hv
      cases hxv : (w.heap.prim a).val with
      | bool c => rw [hxv] at hv; cases hv
      | f32 c => rw [hxv] at hv; cases hv
      | f64 c => rw [hxv] at hv; cases hv
      | int i =>
        rw [hxv] at hv hx
        simp only [showVal] at hv
        cases hg : getStr e.map (.id i) with
        | error x => rw [hg] at hv; cases hv
        | ok s =>
          rw [hg] at hv
          cases hv
          have hgi := getInt_getStr env.parseInt e.map (hf _ (dget_mem hef)) i s hg
          have hset : q.setItem env u n (.str s) = (⟨u.heap.setPrim b (.int i), u.names⟩, .ok ()) := by
            simp only [Proto.setItem, rq.dget_regular, hr, Option.map_some, rq.core.enumFields, hef, hgi, hb]
          refine ⟨?_, ?_, fun res => ?_⟩
          · unfold Lay.Fits
            rw [hr]
            refine fits (fun kind => kind ≠ .float ∧ kind ≠ .double) ⟨fun h => ?_, fun h => ?_⟩
            · rw [h] at hx; exact hx
            · rw [h] at hx; exact hx
          · rw [hset]
          · rw [hset, hqv, hpv, hxv, storeVal_of_hasKind hx]
  | none =>
    have hpv : ∀ res, p.value w n res = p.getBits w n res := by
      intro res
      unfold Proto.value
      rw [rp.dget_regular, hr]; rfl
    have hqv : ∀ u' res, q.value u' n res = q.getBits u' n res := by
      intro u' res
      unfold Proto.value
      rw [rq.dget_regular, hr]; rfl
    rw [hpv] at hv
    have hfit : L.Fits n v := by
      unfold Lay.Fits
      rw [hr, hs]; trivial
    cases hfb : L.findBits n with
    | error e =>
      unfold Proto.getBits at hv
      rw [rp.findBits, hfb] at hv
      cases hv
    | ok t =>
      obtain ⟨k, g, f⟩ := t
      obtain ⟨idx, hg, hfd⟩ := Lay.findBits_mem hfb
      have hm := List.mem_of_getElem? hg
      have hkc := rp.lay.groups_lt _ hm
      have h2 := rq.kind k hkc
      have h1 := rq.groups.kinds _ hm
      dsimp only at h1 hm hkc hfd
      rw [h2] at h1
      have hin := rp.lay.inside _ hm _ _ (dget_mem hfd)
      dsimp only at hin
      generalize ha : (slots w.heap l).getD k 0 = a at *
      generalize hb : (slots u.heap l').getD k 0 = b at *
      have hpb : ∀ res, p.getBits w n res = showBits f (dget L.enumLookup n) res
          (Bits.readField (intOf (w.heap.prim a).val) f.index f.width) := by
        intro res
        rw [getBits_eq w p n ⟨a, g⟩ f (by rw [rp.findBits, hfb]; simp only [Except.map, ha]), rp.core.enumLookup]
      have hrd := readField_self (intOf (w.heap.prim a).val) f.index f.width
      generalize Bits.readField (intOf (w.heap.prim a).val) f.index f.width = rd at *
      have harg : bitsArg env q n v = .ok rd := by
        rw [hpb] at hv
        unfold showBits at hv
        unfold bitsArg
        by_cases hen : f.enum.isSome = true
        · rw [hen, Bool.and_true, if_pos rfl] at hv
          cases hel : dget L.enumLookup n with
          | none => rw [hel] at hv; cases hv
          | some e =>
            rw [hel] at hv
            dsimp only at hv
            cases hgs : getStr e.map (.id rd) with
            | error x => rw [hgs] at hv; cases hv
            | ok s =>
              rw [hgs] at hv
              cases hv
              simp only [rq.core.enumLookup, hel, getInt_getStr env.parseInt e.map (he _ (dget_mem hel)) rd s hgs]
        · rw [if_neg (by simpa using hen)] at hv
          by_cases hw : f.width = 1
          · rw [if_pos hw] at hv
            cases hv
            rw [hw] at hrd
            have : rd = 0 ∨ rd = 1 := by omega
            rcases this with rfl | rfl <;> rfl
          · rw [if_neg hw] at hv
            cases hv
            rfl
      have hset : q.setItem env u n v = (⟨u.heap.setPrim b (.int (Bits.writeField g.kind (intOf (u.heap.prim b).val)
          f.index f.width rd).1), u.names⟩, .ok ()) := by
        have hsb : q.setBits env u n v = (⟨u.heap.setPrim b (.int (Bits.writeField g.kind (intOf (u.heap.prim b).val)
          f.index f.width rd).1), u.names⟩, .ok ()) := by
          unfold Proto.setBits
          rw [rq.findBits, hfb]
          simp only [Except.map, harg, hb]
        unfold Proto.setItem
        rw [rq.dget_regular, rq.dget_serials, hr, hs]
        exact hsb
      refine ⟨hfit, by rw [hset], fun res => ?_⟩
      have hread : Bits.readField (Bits.writeField g.kind (intOf (u.heap.prim b).val) f.index f.width rd).1 f.index f.width = rd := by
        rcases hin with h0 | hin
        · rw [h0] at hrd ⊢
          rw [Bits.readField_arith]
          simp only [pow_zero, Int.emod_one] at hrd ⊢
          exact hrd
        · rw [(Bits.C11_write_read _ _ _ _ _ hin).2.1, hrd]
      rw [hset, hqv, hpv, hpb, getBits_eq _ q n ⟨b, g⟩ f (by
        have hfn : ∀ h', q.findBits ⟨h', u.names⟩ n = q.findBits u n := fun _ => rfl
        rw [hfn, rq.findBits, hfb]
        simp only [Except.map, hb])]
      simp only [setPrim_self, Option.some.inj h1, intOf_written, hread, rq.core.enumLookup]

/-! ### All values -/

theorem readAll_spec' (w : World) (p : Proto) (get : String → Except PyErr PVal) (names : List String)
    (acc vs : List (String × PVal)) (hn : (acc.map Prod.fst).Nodup) (h : Proto.readAll w p get names acc = .ok vs) :
    (vs.map Prod.fst).Nodup ∧ (∀ n v, dget vs n = some v → (n ∈ names ∧ get n = .ok v) ∨ (n ∉ names ∧ dget acc n = some v))
      ∧ (∀ n, n ∈ names ∨ (dget acc n).isSome = true → (dget vs n).isSome = true) := by
  induction names generalizing acc with
  | nil =>
    cases h
    exact ⟨hn, fun n v h => .inr ⟨List.not_mem_nil, h⟩, fun n h => h.resolve_left List.not_mem_nil⟩
  | cons x rest ih =>
    unfold Proto.readAll at h
    cases hg : get x with
    | error e => rw [hg] at h; cases h
    | ok v =>
      rw [hg] at h
      obtain ⟨i1, i2, i3⟩ := ih (dset acc x v) (by
        rw [dset_keys]
        split
        · exact hn
        · rename_i hx
          refine List.nodup_append.mpr ⟨hn, by simp, fun a ha b hb hab => hx ?_⟩
          rw [List.mem_singleton] at hb
          subst hb; subst hab
          obtain ⟨e, he, rfl⟩ := List.mem_map.mp ha
          exact List.any_eq_true.mpr ⟨e, he, by simp⟩) h
      refine ⟨i1, fun n v' hv => ?_, fun n hn' => ?_⟩
      · rcases i2 n v' hv with ⟨h1, h2⟩ | ⟨h1, h2⟩
        · exact .inl ⟨List.mem_cons_of_mem _ h1, h2⟩
        · rw [dget_dset] at h2
          by_cases hxn : x = n
          · rw [if_pos hxn] at h2
            cases h2
            exact .inl ⟨by rw [hxn]; exact List.mem_cons_self, by rw [← hxn]; exact hg⟩
          · rw [if_neg hxn] at h2
            exact .inr ⟨fun hm => (List.mem_cons.mp hm).elim (fun e => hxn e.symm) h1, h2⟩
      · refine i3 n ?_
        rw [dget_dset]
        by_cases hxn : x = n
        · rw [if_pos hxn]; exact .inr rfl
        · rw [if_neg hxn]
          exact hn'.imp_left (fun hm => (List.mem_cons.mp hm).resolve_left (fun e => hxn e.symm))

theorem dget_of_mem {vs : List (String × PVal)} (hn : (vs.map Prod.fst).Nodup) (e : String × PVal) (he : e ∈ vs) :
    dget vs e.1 = some e.2 := by
  induction vs with
  | nil => cases he
  | cons x xs ih =>
    rw [List.map_cons, List.nodup_cons] at hn
    rw [dget_cons]
    rcases List.mem_cons.mp he with rfl | he
    · rw [if_pos rfl]
    · rw [if_neg (fun h => hn.1 (by rw [h]; exact List.mem_map.mpr ⟨e, he, rfl⟩))]
      exact ih hn.2 he

theorem import_all (env : Env) {w : World} {p : Proto} {L : Lay} {l l' : List Nat} (rp : Rep w p L l)
    (hf : ∀ e ∈ L.enumFields, Registry.Spec.Bij e.2.map) (he : ∀ e ∈ L.enumLookup, Registry.Spec.Bij e.2.map) (hs : L.serials = [])
    (vs : List (String × PVal)) (hn : (vs.map Prod.fst).Nodup) (hv : ∀ e ∈ vs, p.value w e.1 true = .ok e.2) :
    ∀ {u : World} {q : Proto}, Rep u q L l' →
      Proto.setAll env u q vs = (q.sets env u vs, .ok ()) ∧ Rep (q.sets env u vs) q L l'
      ∧ (∀ e ∈ vs, ∀ res, q.value (q.sets env u vs) e.1 res = p.value w e.1 res)
      ∧ (∀ n, n ∉ vs.map Prod.fst → ∀ res, q.value (q.sets env u vs) n res = q.value u n res) := by
  have hna : ∀ n, L.NoArray n := fun n i o f h => by rw [hs] at h; cases h
  induction vs with
  | nil => intro u q rq; exact ⟨rfl, rq, fun e he => (by cases he), fun n _ res => rfl⟩
  | cons x rest ih =>
    intro u q rq
    rw [List.map_cons, List.nodup_cons] at hn
    obtain ⟨f1, f2, f3⟩ := import_one env rq rp hf he x.1 x.2 (by rw [hs]; rfl) (hv x List.mem_cons_self)
    have rq1 := rq.setItem env x.1 x.2 f1
    obtain ⟨i1, i2, i3, i4⟩ := ih hn.2 (fun e he => hv e (List.mem_cons_of_mem _ he)) rq1
    have hsets : q.sets env u (x :: rest) = q.sets env (q.setItem env u x.1 x.2).1 rest := rfl
    rw [hsets]
    refine ⟨?_, i2, fun e hem res => ?_, fun n hnm res => ?_⟩
    · obtain ⟨x1, x2⟩ := x
      unfold Proto.setAll
      rcases hset : q.setItem env u x1 x2 with ⟨u1, r⟩
      rw [hset] at f2 i1
      dsimp only at f2 i1
      rw [f2]
      exact i1
    · rcases List.mem_cons.mp hem with rfl | hem
      · rw [i4 e.1 hn.1, f3]
      · exact i3 e hem res
    · rw [List.map_cons, List.mem_cons, not_or] at hnm
      rw [i4 n hnm.2]
      exact (rep_set env rq x.1 n x.2 (fun e => hnm.1 e.symm) (hna _) (hna _)).2 res

/-! ### The groups -/

theorem loadGroups_ok (env : Env) (hv : env.validName "" = false) (raw : BitGroup → Int) (bs : List BitGroup) (h : Heap) (hok : HeapOk h)
    (hs : ∀ g ∈ bs, Bits.Solid env.validName g.grp.kind g.grp.byIndex ∧ g.grp.fields = Bits.fieldsOf g.grp.byIndex
      ∧ g.grp.finalized = true) :
    ∃ h' gs, loadGroups env h (bs.map (fun g => Bits.Group.asdict { g.grp with raw := raw g })) = (h', .ok gs)
      ∧ Ext h h' ∧ HeapOk h' ∧ h'.nn = h.nn
      ∧ gs.map (fun g => (g.grp.kind, g.grp.fields)) = bs.map (fun g => (g.grp.kind, g.grp.fields))
      ∧ (gs.map (·.ref)).Nodup
      ∧ (∀ g ∈ gs, h.np ≤ g.ref ∧ g.ref < h'.np ∧ (h'.prim g.ref).kind = .int g.grp.kind ∧ g.grp.finalized = true) := by
  induction bs generalizing h with
  | nil => exact ⟨h, [], rfl, ⟨fun _ _ => rfl, fun _ _ => rfl, Nat.le_refl _, Nat.le_refl _⟩, hok, rfl, rfl, .nil,
      fun _ hm => (by cases hm)⟩
  | cons g rest ih =>
    obtain ⟨s1, s2, s3⟩ := hs g List.mem_cons_self
    obtain ⟨g', c1, c2, c3, c4, c5⟩ := Bits.C15_layout env.validName hv { g.grp with raw := raw g } s1 s2
    have hst : Spec.HasKind (.int g'.kind) (storeVal (.int g'.kind) (.int g'.raw)) :=
      (packable_iff g'.kind _).mp (wrap_packable g'.kind _)
    have hg := good_newPrim h hok (.int g'.kind) (.int g'.raw) hst
    have e1 := newPrim_ext h (.int g'.kind) (.int g'.raw)
    obtain ⟨h', gs, i1, i2, i3, i4, i5, i6, i7⟩ := ih _ hg.1 (fun x hx => hs x (List.mem_cons_of_mem _ hx))
    have hnp : (h.newPrim (.int g'.kind) (.int g'.raw)).1.np = h.np + 1 := rfl
    have hr : (h.newPrim (.int g'.kind) (.int g'.raw)).2 = h.np := rfl
    have hle := i2.np
    rw [hnp] at hle
    refine ⟨h', ⟨h.np, g'⟩ :: gs, ?_, e1.trans i2, i3, i4, ?_, ?_, ?_⟩
    · simp only [List.map_cons, loadGroups, c1, i1, hr]
    · simp only [List.map_cons, i5, c2, c4]
    · refine List.nodup_cons.mpr ⟨fun hm => ?_, i6⟩
      obtain ⟨x, hx, he⟩ := List.mem_map.mp hm
      have := (i7 x hx).1
      rw [hnp] at this
      dsimp only at he
      omega
    · intro x hx
      rcases List.mem_cons.mp hx with rfl | hx
      · refine ⟨Nat.le_refl _, by dsimp only; omega, ?_, by rw [c5]; exact s3⟩
        dsimp only
        rw [i2.prim h.np (by rw [hnp]; omega)]
        simp [Heap.newPrim]
      · obtain ⟨j1, j2, j3, j4⟩ := i7 x hx
        rw [hnp] at j1
        exact ⟨by omega, j2, j3, j4⟩

/-- Fields given one at a time and bit-fields only: the steps JSON can describe. -/
def BOp.Flat : BOp → Prop
  | .field _ _ _ len => len = none
  | .bits _ => True
  | .serial _ _ => False

theorem importBuild_flat (env : Env) (ops : List BOp) (h : ∀ op ∈ ops, op.Flat) (n : Nat) :
    importBuild (itemsOf env n ops) = .ok (itemsOf env n ops) := by
  induction ops generalizing n with
  | nil => rfl
  | cons op r ih =>
    have hr := ih (fun x hx => h x (List.mem_cons_of_mem _ hx))
    have hop := h op List.mem_cons_self
    cases op with
    | field name kind enum len =>
      cases hop
      simp only [itemsOf, importBuild, hr]
      rfl
    | bits g => simp only [itemsOf, importBuild, hr]; rfl
    | serial m s => exact hop.elim

theorem flat_serials (ops : List BOp) (h : ∀ op ∈ ops, op.Flat) : serialsOf ops = [] := by
  induction ops with
  | nil => rfl
  | cons op r ih =>
    have hr := ih (fun x hx => h x (List.mem_cons_of_mem _ hx))
    have hop := h op List.mem_cons_self
    cases op with
    | field name kind enum len => exact hr
    | bits g => exact hr
    | serial m s => exact hop.elim

theorem steps_serials_nil (env : Env) (ops : List BOp) (h : ∀ op ∈ ops, op.Flat) (L : Lay) (hL : L.serials = []) :
    (ops.foldl (Lay.step env) L).serials = [] := by
  induction ops generalizing L with
  | nil => exact hL
  | cons op r ih =>
    have hop := h op List.mem_cons_self
    rw [List.foldl_cons]
    refine ih (fun x hx => h x (List.mem_cons_of_mem _ hx)) _ ?_
    cases op with
    | field name kind enum len => exact hL
    | bits g => exact hL
    | serial m s => exact hop.elim

theorem steps_regular_keys (env : Env) (ops : List BOp) (L : Lay) :
    (∀ n, (dget L.regular n).isSome = true → (dget (ops.foldl (Lay.step env) L).regular n).isSome = true)
      ∧ ∀ n kind enum len, BOp.field n kind enum len ∈ ops → (dget (ops.foldl (Lay.step env) L).regular n).isSome = true := by
  induction ops generalizing L with
  | nil => exact ⟨fun _ h => h, fun n kind enum len h => by cases h⟩
  | cons op r ih =>
    rw [List.foldl_cons]
    obtain ⟨i1, i2⟩ := ih (L.step env op)
    have keep : ∀ n, (dget L.regular n).isSome = true → (dget (L.step env op).regular n).isSome = true := by
      intro n hn
      cases op with
      | field m kind enum len =>
        show (dget (dset L.regular m L.count) n).isSome = true
        rw [dget_dset]
        split
        · rfl
        · exact hn
      | bits g => exact hn
      | serial m s => exact hn
    refine ⟨fun n hn => i1 n (keep n hn), fun n kind enum len h => ?_⟩
    rcases List.mem_cons.mp h with h | h
    · subst h
      refine i1 n ?_
      show (dget (dset L.regular n L.count) n).isSome = true
      rw [dget_dset_self]; rfl
    · exact i2 n kind enum len h

theorem lastWith_mem (n : String) (gs : List (IntKind × List (String × Bits.Field))) (g : IntKind × List (String × Bits.Field))
    (hg : g ∈ gs) (hn : n ∈ g.2.map (·.1)) : (lastWith n gs).isSome = true := by
  induction gs with
  | nil => cases hg
  | cons x xs ih =>
    unfold lastWith
    cases hl : lastWith n xs with
    | some j => rfl
    | none =>
      rcases List.mem_cons.mp hg with rfl | hg
      · simp only [hn, if_true, Option.isSome_some]
      · rw [hl] at ih
        exact absurd (ih hg) (by simp)

theorem Shadow.setAll {w : World} {p q : Proto} (env : Env) (s : Shadow w p q) (t : List (String × PVal)) :
    p.setAll env w t = q.setAll env w t := by
  induction t generalizing w with
  | nil => rfl
  | cons x rest ih =>
    obtain ⟨n, v⟩ := x
    have h1 := s.setItem env n v
    unfold Proto.setAll
    rw [h1]
    rcases hs : q.setItem env w n v with ⟨w1, e | ⟨⟩⟩
    · rfl
    · refine ih (s.at ?_)
      have := setItem_names env w q n v
      rw [hs] at this
      exact this

theorem value_unknown {w : World} {p : Proto} {L : Lay} {l : List Nat} (r : Rep w p L l) (n : String)
    (h1 : dget L.regular n = none) (h2 : dget L.lookup n = none) (res : Bool) : p.value w n res = .error .key := by
  unfold Proto.value Proto.getBits
  rw [r.dget_regular, h1, r.findBits]
  unfold Lay.findBits
  rw [h2]
  rfl

theorem mem_keys {α : Type} (d : List (String × α)) (n : String) : n ∈ d.map (·.1) ↔ (dget d n).isSome = true := by
  rw [← dget_isSome]
  simp [List.any_eq_true]

/-- C29. A protocol of fields and bit-fields (the groups as in C15; no array lengths and no
serializables, which JSON loses or refuses: `C29_json_array_length_fails`,
`C29_json_serializable_fails`), its fields set in any way: once exported it can be imported, anywhere.
The protocol imported has the same identifier, the same byte order, the same names in the same
order, the same wire size and the same value for every name, and reads what the original writes.
The enumerations used are bijections, as C16 shows of all that can be constructed. -/
theorem C29_json_partial (env : Env) (hv : env.validName "" = false)
    (hen : ∀ key e, env.enums key = some e → Registry.Spec.Bij e.map) (ops : List BOp) (hops : ∀ op ∈ ops, op.Ok)
    (hpl : PlainGroups env ops) (hfl : ∀ op ∈ ops, op.Flat) (o : ByteOrder) (ho : o ≠ .native) (id : Int) (w0 : World)
    (ok : HeapOk w0.heap) (v : World) (p : Proto)
    (b : (Proto.new w0 o id).2.steps env (Proto.new w0 o id).1 ops = .ok (v, p))
    (s : List (String × PVal)) (f : ∀ e ∈ s, (Lay.steps env o ops).Fits e.1 e.2)
    (d : Data) (hd : p.export (p.sets env v s) = .ok d) (w2 : World) (ok2 : HeapOk w2.heap) :
    ∃ w' c, Proto.import env w2 d = (w', .ok c) ∧ c.id = id ∧ c.order = p.order
      ∧ c.regular.map (·.1) = p.regular.map (·.1)
      ∧ (∃ n, (p.sets env v s).heap.length p.arr = .ok n ∧ w'.heap.length c.arr = .ok n)
      ∧ (∀ name, c.getItem w' name = p.getItem (p.sets env v s) name
          ∧ ∀ res, c.value w' name res = p.value (p.sets env v s) name res)
      ∧ ∃ bs, (p.sets env v s).heap.toStream p.arr = .ok (bs, bs.length) ∧ ∀ rest, ∃ h',
          w'.heap.fromStream c.arr (bs ++ rest) = (h', .ok (bs.length, rest)) := by
  obtain ⟨l, r0, -, hid⟩ := rep_steps env (rep_new w0 ok o ho id) ops hops v p b
  replace hid : p.id = id := hid
  have r := r0.sets env s f
  have hkn : ∀ op ∈ ops, op.Known env (p.sets env v s).names := by
    rw [sets_names]
    exact (steps_known env ops _ _ _ _ b).1
  generalize p.sets env v s = w at *
  have hlay : List.foldl (Lay.step env) (Lay.new o) ops = Lay.steps env o ops := rfl
  rw [hlay] at r
  have hser : (Lay.steps env o ops).serials = [] := steps_serials_nil env ops hfl _ rfl
  have hso := flat_serials ops hfl
  have horder : p.order = o := by
    rw [r.core.order]
    have : ∀ (ops : List BOp) (L : Lay), (ops.foldl (Lay.step env) L).order = L.order := by
      intro ops
      induction ops with
      | nil => intro L; rfl
      | cons op r ih =>
        intro L
        rw [List.foldl_cons, ih]
        cases op <;> rfl
    exact this ops _
  -- the export
  unfold Proto.export at hd
  cases hr1 : Proto.readAll w p (fun n => p.getBits w n true) (p.lookup.map (·.1)) [] with
  | error e => rw [hr1] at hd; cases hd
  | ok vs1 =>
  rw [hr1] at hd
  dsimp only at hd
  cases hr2 : Proto.readAll w p (fun n => p.value w n true) (p.regular.map (·.1)) vs1 with
  | error e => rw [hr2] at hd; cases hd
  | ok vs =>
  rw [hr2] at hd
  cases hd
  obtain ⟨a1, a2, a3⟩ := readAll_spec' w p _ _ [] _ .nil hr1
  obtain ⟨b1, b2, b3⟩ := readAll_spec' w p _ _ _ _ a1 hr2
  have hvals : ∀ e ∈ vs, p.value w e.1 true = .ok e.2 := by
    intro e he
    rcases b2 _ _ (dget_of_mem b1 e he) with ⟨-, h⟩ | ⟨h1, h2⟩
    · exact h
    · rcases a2 _ _ h2 with ⟨-, h⟩ | ⟨-, h⟩
      · rw [mem_keys, Bool.not_eq_true, Option.isSome_eq_false_iff, Option.isNone_iff_eq_none] at h1
        unfold Proto.value
        rw [h1]; exact h
      · cases h
  -- the groups
  have hgall : ∀ g ∈ p.groups, Bits.Solid env.validName g.grp.kind g.grp.byIndex
      ∧ g.grp.fields = Bits.fieldsOf g.grp.byIndex ∧ g.grp.finalized = true := by
    intro g hg
    rw [r.groups.groups] at hg
    obtain ⟨e, he, rfl⟩ := List.mem_map.mp hg
    exact steps_groups_all env (fun g => Bits.Solid env.validName g.kind g.byIndex
      ∧ g.fields = Bits.fieldsOf g.byIndex ∧ g.finalized = true) ops (Lay.new o)
      (fun g hm => ⟨(hpl.solid _ hm).1, (hpl.solid _ hm).2, rfl⟩) (fun e he => by cases he) e he
  obtain ⟨h1, gs, g1, g2, g3, g4, g5, g6, g7⟩ := loadGroups_ok env hv (fun g => intOf (w.heap.prim g.ref).val) p.groups w2.heap ok2 hgall
  have hgs : gs.map (fun g => (g.grp.kind, g.grp.fields)) = groupsOf ops := by
    rw [g5, r.groups.groups, List.map_map]
    have := steps_groups env ops (Lay.new o)
    rw [hlay] at this
    simpa [Lay.new, Function.comp_def] using this
  have hknown : ∀ op ∈ ops, op.Known env (p.lookup.map (·.1) ++ p.regular.map (·.1)) := by
    intro op hop
    have hk := hkn op hop
    cases op with
    | serial n sp => exact (hfl _ hop).elim
    | field n kind enum len =>
      refine ⟨List.mem_append_right _ ?_, hk.2⟩
      rw [mem_keys, r.dget_regular, Option.isSome_map]
      exact (steps_regular_keys env ops (Lay.new o)).2 n kind enum len hop
    | bits g =>
      refine ⟨fun e he => List.mem_append_left _ ?_, hk.2⟩
      rw [mem_keys, r.core.lookup, steps_lookup]
      refine lastWith_mem e.1 _ (g.kind, g.fields) ?_ (List.mem_map.mpr ⟨e, he, rfl⟩)
      clear * - hop
      induction ops with
      | nil => cases hop
      | cons x xs ih =>
        rcases List.mem_cons.mp hop with h | h
        · subst h; exact List.mem_cons_self
        · have := ih h
          cases x with
          | bits g' => exact List.mem_cons_of_mem _ this
          | field _ _ _ _ => exact this
          | serial _ _ => exact this
  obtain ⟨w1, c, l', L', c1, c2, c3, c4, c5, c6, c7, c8, c9, c10, c11⟩ := create_ok env o ho p.id ops hops
    ⟨h1, p.lookup.map (·.1) ++ p.regular.map (·.1)⟩ g3 0 0 (Nat.zero_le _) (Nat.zero_le _) hknown gs [] hgs (by rw [hso]; rfl)
    .nil (fun e he => by cases he) .nil (fun g hg => ⟨Nat.zero_le _, (g7 g hg).2.1, (g7 g hg).2.2.1, (g7 g hg).2.2.2⟩)
    (by simpa [slots] using g6) (fun q hq => Nat.zero_le _)
  obtain ⟨q, sh, rq⟩ := create_shadow env o ops gs c2 c3 c4 c5 c6 r.groups.kinds r.lay
  obtain ⟨e1, e2⟩ := steps_enums env (fun e => Registry.Spec.Bij e.map) hen ops (Lay.new o) (fun e he => by cases he) (fun e he => by cases he)
  obtain ⟨i1, i2, i3, i4⟩ := import_all env r e1 e2 hser vs b1 hvals rq
  have sh' : Shadow (q.sets env w1 vs) c q := sh.at (sets_names env w1 q vs)
  have harr : ∀ s ∈ (Lay.steps env o ops).shapes, ∃ o' f', s = .array o' f' := by
    intro s hs
    obtain ⟨j, hj, rfl⟩ := List.mem_iff_getElem.mp hs
    by_contra hc
    obtain ⟨n, hn⟩ := (serInv_all env o ops (fun a n o ks op b h => by
      have := hfl (.serial n (.array o ks)) (by rw [h]; simp)
      exact this.elim) (by rw [hso]; exact .nil)).chunks j _ (List.getElem?_eq_getElem hj) (fun o' f' h => hc ⟨o', f', h⟩)
    rw [hser] at hn; cases hn
  have hval : ∀ name res, c.value (q.sets env w1 vs) name res = p.value w name res := by
    intro name res
    rw [sh'.value]
    by_cases hm : name ∈ vs.map Prod.fst
    · obtain ⟨e, he, rfl⟩ := List.mem_map.mp hm
      exact i3 e he res
    · rw [i4 name hm]
      have hnone : dget (Lay.steps env o ops).regular name = none ∧ dget (Lay.steps env o ops).lookup name = none := by
        constructor
        · by_contra hc
          refine hm ((mem_keys _ _).mpr (b3 name (.inl ?_)))
          rw [mem_keys, r.dget_regular, Option.isSome_map, Option.isSome_iff_ne_none]
          exact hc
        · by_contra hc
          refine hm ((mem_keys _ _).mpr (b3 name (.inr (a3 name (.inl ?_)))))
          rw [mem_keys, r.core.lookup, Option.isSome_iff_ne_none]
          exact hc
      rw [value_unknown rq name hnone.1 hnone.2, value_unknown r name hnone.1 hnone.2]
  refine ⟨q.sets env w1 vs, c, ?_, ?_, ?_, ?_, ⟨_, length_arrays r.core harr, ?_⟩, fun name => ⟨?_, hval name⟩, ?_⟩
  · unfold Proto.import
    dsimp only
    rw [g1]
    dsimp only
    rw [build_of r, importBuild_flat env ops hfl, horder]
    dsimp only
    rw [c1]
    dsimp only
    rw [sh.setAll env, i1]
  · exact c7.trans hid
  · rw [sh.order, rq.core.order, r.core.order]
  · rw [sh.regular, rq.core.regular, r.core.regular, List.map_map, List.map_map]; rfl
  · rw [sh.arr]; exact length_arrays i2.core harr
  · unfold Proto.getItem
    rw [sh.serials, rq.dget_serials, r.dget_serials, hser]
    exact hval name true
  · obtain ⟨bs, f1, -, f3⟩ := rep_round_trip r i2
    refine ⟨bs, f1, fun rest => ?_⟩
    obtain ⟨h', f4, -⟩ := f3 rest
    exact ⟨h', by rw [sh.arr]; exact f4⟩

/-! ### What JSON loses -/

theorem importBuild_ser (items : List BuildItem) (n : String) (h : BuildItem.ser n ∈ items) : importBuild items = .error .type := by
  induction items with
  | nil => cases h
  | cons x xs ih =>
    cases x with
    | ser m => rfl
    | bits i =>
      have := ih ((List.mem_cons.mp h).resolve_left (fun e => by cases e))
      simp only [importBuild, this]; rfl
    | spec s =>
      have := ih ((List.mem_cons.mp h).resolve_left (fun e => by cases e))
      simp only [importBuild, this]; rfl

/-- C29 fails for JSON and serializables: whatever else the protocol holds, what it exports can never
be imported once a serializable was added. -/
theorem C29_json_serializable_fails (env : Env) (ops : List BOp) (hops : ∀ op ∈ ops, op.Ok) (o : ByteOrder) (ho : o ≠ .native)
    (id : Int) (w0 : World) (ok : HeapOk w0.heap) (v : World) (p : Proto)
    (b : (Proto.new w0 o id).2.steps env (Proto.new w0 o id).1 ops = .ok (v, p))
    (s : List (String × PVal)) (f : ∀ e ∈ s, (Lay.steps env o ops).Fits e.1 e.2)
    (n : String) (sp : SerSpec) (hn : BOp.serial n sp ∈ ops) (d : Data) (hd : p.export (p.sets env v s) = .ok d) :
    ∀ w2 w' c, Proto.import env w2 d ≠ (w', .ok c) := by
  intro w2 w' c hc
  obtain ⟨l, r0, -⟩ := rep_steps env (rep_new w0 ok o ho id) ops hops v p b
  have hb : p.build = itemsOf env 0 ops := build_of (ops := ops) (o := o) (r0.sets env s f)
  have hm : BuildItem.ser n ∈ itemsOf env 0 ops := by
    obtain ⟨x, y, rfl⟩ := List.append_of_mem hn
    rw [itemsOf_append]
    exact List.mem_append_right _ List.mem_cons_self
  have hbd : d.build = p.build := by
    unfold Proto.export at hd
    split at hd
    · cases hd
    · split at hd
      · cases hd
      · cases hd; rfl
  unfold Proto.import at hc
  rcases hl : loadGroups env w2.heap d.groups with ⟨h, e | gs⟩
  · rw [hl] at hc
    cases hc
  · rw [hl] at hc
    dsimp only at hc
    rw [hbd, hb, importBuild_ser _ n hm] at hc
    cases hc

/-- The sample protocol has serializables and can be exported. -/
example : (sampleProto.toOption.bind fun (w, p) => (p.export w).toOption.map (fun d => d.values.length)) = some 5 := by
  decide +kernel

/-- C29 fails for JSON and array lengths: a field of three elements comes back with one. -/
theorem C29_json_array_length_fails :
    (((Proto.new sampleWorld .big 7).2.steps sampleEnv (Proto.new sampleWorld .big 7).1
        [.field "x" (some (.int .int16)) none (some 3)]).toOption.bind fun (w, p) =>
      (p.export w).toOption.bind fun d =>
        match Proto.import sampleEnv w d with
        | (w', .ok c) => some ((w.heap.length p.arr).toOption, (w'.heap.length c.arr).toOption)
        | _ => none) = some (some 6, some 2) := by
  decide +kernel

/-! ### The conditions can be met -/

/-- The sample protocol without the field behind the array. -/
def copyOps : List BOp :=
  [.field "x" (some (.int .int16)) none none, .bits sampleGroup, .serial "name" (.prefixed .uint8 .big),
   .field "y" (some (.int .uint32)) none (some 2), .serial "tag" (.fixed [0x61, 0x62]), .serial "arr" (.array .little [.int .uint8])]

theorem sampleGroup_plain : Bits.Spec.Plain sampleEnv.validName .uint8
    [.pad 2 none 0, .field "mode" 3 none none true, .flag "on" none none true] := by
  refine ⟨⟨⟨trivial, ?_⟩, ?_⟩, ?_⟩
  · trivial
  · decide
  · exact ⟨by decide, rfl⟩

example : PlainGroups sampleEnv copyOps := by
  intro g hg
  simp only [copyOps, List.mem_cons, BOp.bits.injEq, reduceCtorEq, List.not_mem_nil, or_false, false_or] at hg
  exact ⟨.uint8, _, sampleGroup_plain, hg⟩

example : NoGrow copyOps ∧ ((serialsOf copyOps).map (·.1)).Nodup := by
  refine ⟨fun a n o ks op b h => ?_, by decide⟩
  exfalso
  have hl : (copyOps.drop (a.length + 1)) = op :: b := by rw [h]; simp
  have hg : copyOps[a.length]? = some (.serial n (.array o ks)) := by rw [h]; simp
  have hlt : a.length < 5 := by
    have := congrArg List.length hl
    simp [copyOps] at this
    omega
  have : a.length = 0 ∨ a.length = 1 ∨ a.length = 2 ∨ a.length = 3 ∨ a.length = 4 := by omega
  rcases this with h | h | h | h | h <;> rw [h] at hg <;> simp [copyOps] at hg

/-- It can be built and copied, and the copy has its size, also after a chunk got longer. -/
example : (((Proto.new sampleWorld .big 7).2.steps sampleEnv (Proto.new sampleWorld .big 7).1 copyOps).toOption.bind fun (w, p) =>
    match p.copy sampleEnv (p.sets sampleEnv w sampleSets) with
    | (w1, .ok c) => some ((w1.heap.length p.arr).toOption, (w1.heap.length c.arr).toOption)
    | _ => none) = some (some 18, some 18) := by
  decide +kernel

/-- The small protocol meets the conditions for JSON. -/
example : (∀ op ∈ smallOps, op.Flat) ∧ PlainGroups sampleEnv smallOps
    ∧ (∀ key e, sampleEnv.enums key = some e → Registry.Spec.Bij e.map) := by
  refine ⟨fun op h => ?_, fun g hg => ?_, fun key e h => by cases h⟩
  · simp only [smallOps, List.mem_cons, List.not_mem_nil, or_false] at h
    rcases h with rfl | rfl
    · rfl
    · trivial
  · simp only [smallOps, List.mem_cons, BOp.bits.injEq, reduceCtorEq, List.not_mem_nil, or_false, false_or] at hg
    exact ⟨.uint8, _, sampleGroup_plain, hg⟩

example : (smallProto.toOption.bind fun (w, p) =>
    (p.export (p.sets sampleEnv w [("x", .val (.int (-3))), ("mode", .val (.int 5))])).toOption.bind fun d =>
      match Proto.import sampleEnv sampleWorld d with
      | (w', .ok c) => some ((c.getItem w' "x").toOption, (c.getItem w' "mode").toOption, c.id)
      | _ => none) = some (some (.val (.int (-3))), some (.val (.int 5)), 7) := by
  decide +kernel

end Verif.Protocol
