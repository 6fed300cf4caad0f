import Verif.Protocol.Sets
/-! Reading back what was set, by the steps that declared a name; groups that can be reached. -/
namespace Verif.Protocol

open Verif.Wire Verif.Serial Verif.Registry

/-! ### Groups of bit-fields meet the condition on building steps -/

structure GInv (g : Bits.Group) : Prop where
  avail_lt : ∀ b, g.avail b = true → b < g.kind.bits
  taken : ∀ e ∈ g.fields, ∀ b, Bits.Spec.Covers e.2.index e.2.width b → g.avail b = false ∧ b < g.kind.bits
  disjoint : ∀ e ∈ g.fields, ∀ e' ∈ g.fields, e.1 ≠ e'.1 →
    ∀ b, ¬ (Bits.Spec.Covers e.2.index e.2.width b ∧ Bits.Spec.Covers e'.2.index e'.2.width b)

theorem GInv.claim {g g' : Bits.Group} (gi : GInv g) {w : Nat} {idx : Option Int} {i : Nat}
    (h : g.claim w idx = .ok (g', i)) :
    GInv g' ∧ g'.fields = g.fields ∧ g'.kind = g.kind
      ∧ (∀ b, Bits.Spec.Covers i w b → g'.avail b = false ∧ b < g.kind.bits)
      ∧ ∀ e ∈ g.fields, ∀ b, ¬ (Bits.Spec.Covers e.2.index e.2.width b ∧ Bits.Spec.Covers i w b) := by
  obtain ⟨-, -, h3, h4⟩ := Bits.claim_ok h
  subst h4
  refine ⟨⟨?_, ?_, gi.disjoint⟩, rfl, rfl, ?_, ?_⟩
  · intro b hb
    simp only [Bool.and_eq_true] at hb
    exact gi.avail_lt b hb.1
  · intro e he b hb
    have := gi.taken e he b hb
    exact ⟨by simp only [this.1, Bool.false_and], this.2⟩
  · intro b hb
    refine ⟨?_, gi.avail_lt b (h3 b hb)⟩
    have h1 := hb.1
    have h2 := hb.2
    simp [h1, h2]
  · intro e he b hb
    have := (gi.taken e he b hb.1).1
    rw [h3 b hb.2] at this
    cases this

theorem GInv.add {g : Bits.Group} (gi : GInv g) (f : Bits.Field) (name : String) (items : List (Nat × Bits.Item))
    (h1 : ∀ b, Bits.Spec.Covers f.index f.width b → g.avail b = false ∧ b < g.kind.bits)
    (h2 : ∀ e ∈ g.fields, ∀ b, ¬ (Bits.Spec.Covers e.2.index e.2.width b ∧ Bits.Spec.Covers f.index f.width b)) :
    GInv { g with fields := dset g.fields name f, byIndex := items } := by
  refine ⟨gi.avail_lt, ?_, ?_⟩
  · intro e he
    rcases mem_dset he with rfl | he
    · exact h1
    · exact gi.taken e he
  · intro e he e' he' hne b hb
    rcases mem_dset he with rfl | he <;> rcases mem_dset he' with rfl | he'
    · exact hne rfl
    · exact h2 e' he' b ⟨hb.2, hb.1⟩
    · exact h2 e he b hb
    · exact gi.disjoint e he e' he' hne b hb

theorem ginv_after (validName : String → Bool) (k : IntKind) (ops : List Bits.Op) :
    GInv (Bits.after validName k ops).g := by
  induction ops with
  | nil =>
    refine ⟨?_, ?_, ?_⟩ <;> simp [Bits.after, Bits.Group.new]
  | cons op rest ih =>
    show GInv (Bits.step validName (Bits.after validName k rest) op).1.g
    generalize Bits.after validName k rest = s at *
    cases op with
    | flag n i e c =>
      simp only [Bits.step, Bits.allocOut, Bits.Group.flag]
      cases hc : s.g.claim 1 i with
      | error x => exact ih
      | ok r =>
        obtain ⟨g', j⟩ := r
        obtain ⟨c1, c2, c3, c4, c5⟩ := ih.claim hc
        dsimp only
        split <;> rename_i hx <;> split at hx <;> try (cases hx)
        · rename_i hok
          rw [if_pos hok]
          exact c1.add _ _ _ (by rw [c3]; exact c4) (by rw [c2]; exact c5)
        · rename_i hok
          rw [if_neg hok]
          exact c1
    | field n w i e c =>
      simp only [Bits.step, Bits.allocOut, Bits.Group.field]
      by_cases hw : w = 1
      · simp only [hw, if_true]; exact ih
      · simp only [hw, if_false]
        cases hc : s.g.claim w i with
        | error x => exact ih
        | ok r =>
          obtain ⟨g', j⟩ := r
          obtain ⟨c1, c2, c3, c4, c5⟩ := ih.claim hc
          dsimp only
          by_cases hok : Bits.fieldOk validName g'.kind n j w = true
          · by_cases ha : (g'.fields.any (·.1 == n)) = true
            · simp only [hok, ha, if_true]; exact c1
            · simp only [hok, ha, if_true]
              exact c1.add _ _ _ (by rw [c3]; exact c4) (by rw [c2]; exact c5)
          · simp only [hok]; exact c1
    | pad w i v =>
      simp only [Bits.step, Bits.allocOut, Bits.Group.pad]
      cases hc : s.g.claim w i with
      | error x => exact ih
      | ok r =>
        obtain ⟨g', j⟩ := r
        obtain ⟨c1, -⟩ := ih.claim hc
        exact ⟨c1.avail_lt, c1.taken, c1.disjoint⟩
    | write h v =>
      simp only [Bits.step]
      split
      · exact ⟨ih.avail_lt, ih.taken, ih.disjoint⟩
      · exact ih
    | invert h =>
      simp only [Bits.step]
      split
      · exact ⟨ih.avail_lt, ih.taken, ih.disjoint⟩
      · exact ih
    | finalize => exact ⟨ih.avail_lt, ih.taken, ih.disjoint⟩

/-- Every group a user can build meets the condition on building steps. -/
theorem C28_groups_ok (validName : String → Bool) (k : IntKind) (ops : List Bits.Op) :
    (BOp.bits (Bits.after validName k ops).g).Ok := by
  have gi := ginv_after validName k ops
  refine ⟨fun n f hm => ?_, fun n f m f' h1 h2 hne => gi.disjoint _ (dget_mem h1) _ (dget_mem h2) hne⟩
  by_cases hw : f.width = 0
  · exact .inl hw
  · have := (gi.taken _ hm (f.index + f.width - 1) ⟨by dsimp only; omega, by dsimp only; omega⟩).2
    exact .inr (by omega)

/-! ### Names and what they stand for -/

/-- The names a step declares. -/
def BOp.names : BOp → List String
  | .field n .. => [n]
  | .bits g => g.fields.map (·.1)
  | .serial n _ => [n]

theorem enterAll_other (env : Env) (idx : Nat) (fs : List (String × Bits.Field))
    (t : List (String × Nat) × List (String × Enum)) (n : String) (h : n ∉ fs.map (·.1)) :
    dget (enterAll env idx fs t).1 n = dget t.1 n := by
  induction fs generalizing t with
  | nil => rfl
  | cons x rest ih =>
    simp only [List.map_cons, List.mem_cons, not_or] at h
    rw [enterAll, ih _ h.2]
    exact dget_dset_ne _ _ _ _ (fun e => h.1 e.symm)

theorem enterAll_self (env : Env) (idx : Nat) (fs : List (String × Bits.Field))
    (t : List (String × Nat) × List (String × Enum)) (n : String) (h : n ∈ fs.map (·.1)) :
    dget (enterAll env idx fs t).1 n = some idx := by
  induction fs generalizing t with
  | nil => cases h
  | cons x rest ih =>
    by_cases hr : n ∈ rest.map (·.1)
    · exact ih _ hr
    · rw [enterAll, enterAll_other _ _ _ _ _ hr]
      have : n = x.1 := by
        simp only [List.map_cons, List.mem_cons] at h
        exact h.resolve_right hr
      subst this
      exact dget_dset_self _ _ _

theorem addShape_keep (o : ByteOrder) (ks : List Kind) (ss : List Shape) (i : Nat) (s : Shape)
    (h : ss[i]? = some s) (hs : ∀ o f, s ≠ .array o f) : (addShape o ks ss)[i]? = some s := by
  rcases List.eq_nil_or_concat ss with rfl | ⟨f, x, rfl⟩
  · cases h
  · rw [List.concat_eq_append] at h ⊢
    rw [addShape_append]
    by_cases hi : i < f.length
    · rw [List.getElem?_append_left hi] at h ⊢; exact h
    · rw [List.getElem?_append_right (by omega)] at h ⊢
      have h0 : i - f.length = 0 := by
        have := (List.getElem?_eq_some_iff.mp h).1
        simp only [List.length_singleton] at this
        omega
      rw [h0] at h ⊢
      simp only [List.getElem?_cons_zero, Option.some.injEq] at h
      subst h
      cases x with
      | array o' f' => exact absurd rfl (hs o' f')
      | fixed n => rfl
      | prefixed k o' => rfl

/-- Steps that do not declare a name leave it as it is. -/
structure Keeps (L L' : Lay) (n : String) : Prop where
  regular : dget L'.regular n = dget L.regular n
  lookup : dget L'.lookup n = dget L.lookup n
  serials : dget L'.serials n = dget L.serials n
  kinds : kindsOf L.shapes <+: kindsOf L'.shapes
  groups : L.groups <+: L'.groups
  shapes : ∀ (i : Nat) (s : Shape), L.shapes[i]? = some s → (∀ o f, s ≠ .array o f) → L'.shapes[i]? = some s

theorem Keeps.trans {L L' L'' : Lay} {n : String} (a : Keeps L L' n) (b : Keeps L' L'' n) : Keeps L L'' n :=
  ⟨b.1.trans a.1, b.2.trans a.2, b.3.trans a.3, a.4.trans b.4, a.5.trans b.5,
    fun i s h hs => b.6 i s (a.6 i s h hs) hs⟩

theorem keeps_step (env : Env) (L : Lay) (op : BOp) (n : String) (h : n ∉ op.names) : Keeps L (L.step env op) n := by
  cases op with
  | field m kind enum len =>
    have hm : m ≠ n := fun e => h (by simp [BOp.names, e])
    exact ⟨dget_dset_ne _ _ _ _ hm, rfl, rfl, by
      simp only [Lay.step, Lay.addField, kindsOf_addShape]; exact List.prefix_append _ _, List.prefix_rfl,
      fun i s h hs => addShape_keep _ _ _ _ _ h hs⟩
  | bits g =>
    exact ⟨rfl, enterAll_other _ _ _ _ _ h, rfl, by
      simp only [Lay.step, Lay.addBits, kindsOf_addShape]; exact List.prefix_append _ _, List.prefix_append _ _,
      fun i s h hs => addShape_keep _ _ _ _ _ h hs⟩
  | serial m s =>
    have hm : m ≠ n := fun e => h (by simp [BOp.names, e])
    refine ⟨rfl, rfl, dget_dset_ne _ _ _ _ hm, ?_, List.prefix_rfl, fun i s h hs => ?_⟩
    · simp only [Lay.step, Lay.addSer, kindsOf_append]; exact List.prefix_append _ _
    · simp only [Lay.step, Lay.addSer]
      rw [List.getElem?_append_left (List.getElem?_eq_some_iff.mp h).1]; exact h

theorem keeps_steps (env : Env) (ops : List BOp) (n : String) (h : ∀ op ∈ ops, n ∉ op.names) (L : Lay) :
    Keeps L (ops.foldl (Lay.step env) L) n := by
  induction ops generalizing L with
  | nil => exact ⟨rfl, rfl, rfl, List.prefix_rfl, List.prefix_rfl, fun _ _ h _ => h⟩
  | cons op rest ih =>
    exact (keeps_step env L op n (h op List.mem_cons_self)).trans (ih (fun o ho => h o (List.mem_cons_of_mem _ ho)) _)

theorem prefix_get {α : Type} {a b : List α} (h : a <+: b) (i : Nat) (x : α) (hi : a[i]? = some x) : b[i]? = some x := by
  obtain ⟨t, rfl⟩ := h
  rw [List.getElem?_append_left (List.getElem?_eq_some_iff.mp hi).1]; exact hi

/-! ### Reading back -/

theorem rep_get_field (env : Env) {w : World} {p : Proto} {L : Lay} {l : List Nat} (r : Rep w p L l) (n : String)
    (k : Nat) (kind : Kind) (hk : dget L.regular n = some k) (hkind : (kindsOf L.shapes)[k]? = some kind) (v : Val) :
    p.value (p.setItem env w n (.val v)).1 n false = .ok (.val (storeVal kind v)) := by
  have hkc := r.lay.regular_lt _ (dget_mem hk)
  have h2 := r.kind k hkc
  rw [hkind] at h2
  simp only [Proto.setItem, Proto.value, r.dget_regular, hk, Option.map_some, setPrim_self, ← Option.some.inj h2]
  rfl

theorem rep_get_bits (env : Env) {w : World} {p : Proto} {L : Lay} {l : List Nat} (r : Rep w p L l) (n : String)
    (k : Nat) (g : Bits.Group) (f : Bits.Field) (hn : dget L.regular n = none) (hs : dget L.serials n = none)
    (hf : L.findBits n = .ok (k, g, f)) (v : Int) :
    p.value (p.setItem env w n (.val (.int v))).1 n false
      = .ok (.val (if f.width = 1 then .bool (v % 2 ≠ 0) else .int (v % 2 ^ f.width))) := by
  obtain ⟨idx, hg, hfd⟩ := Lay.findBits_mem hf
  have hm := List.mem_of_getElem? hg
  have hkc := r.lay.groups_lt _ hm
  have h2 := r.kind k hkc
  have h1 := r.groups.kinds _ hm
  dsimp only at h1 hm
  rw [h2] at h1
  have hin := r.lay.inside _ hm _ _ (dget_mem hfd)
  dsimp only at hin
  have hread : Bits.readField (Bits.writeField g.kind (intOf (w.heap.prim ((slots w.heap l).getD k 0)).val)
      f.index f.width v).1 f.index f.width = v % 2 ^ f.width := by
    rcases hin with h0 | hin
    · rw [h0, Bits.readField_arith]; simp
    · exact (Bits.C11_write_read _ _ _ _ _ hin).2.1
  have hfb : ∀ h', p.findBits ⟨h', w.names⟩ n = p.findBits w n := fun _ => rfl
  simp only [Proto.setItem, Proto.value, r.dget_regular, r.dget_serials, hn, hs, Option.map_none, Proto.setBits, r.findBits, hf,
    Except.map, bitsArg, Proto.getBits]
  rw [hfb, r.findBits, hf]
  simp only [Except.map, setPrim_self, Option.some.inj h1, intOf_written, hread, Bool.and_false]
  by_cases hw : f.width = 1
  · simp [hw]
  · simp [hw]

theorem rep_get_chunk (env : Env) {w : World} {p : Proto} {L : Lay} {l : List Nat} (r : Rep w p L l) (n : String)
    (i : Nat) (s : Shape) (hn : dget L.regular n = none) (hi : dget L.serials n = some i) (hs : L.shapes[i]? = some s)
    (hna : ∀ o f, s ≠ .array o f) (t : String) :
    p.getItem (p.setItem env w n (.str t)).1 n = .ok (.str t) := by
  have hlt : i < l.length := by rw [r.core.chain_len]; exact r.lay.serials_lt _ (dget_mem hi)
  have hsh : shape w.heap (l.getD i 0) = s := by
    rw [← r.core.shapes, List.getElem?_map, List.getElem?_eq_getElem hlt] at hs
    rw [List.getD_eq_getElem _ _ hlt]
    exact Option.some.inj hs
  have hstr : String.ofList t.toList = t := String.ofList_toList
  simp only [Proto.setItem, Proto.getItem, r.dget_regular, r.dget_serials, hn, hi, Option.map_none, Option.map_some]
  unfold Heap.update
  cases hb : (w.heap.node (l.getD i 0)).body with
  | array a => rw [shape, hb] at hsh; exact absurd hsh.symm (hna _ _)
  | fixed d =>
    simp only [showNode, setBody_self, utf8Dec_utf8, Except.map, hstr]
  | prefixed d =>
    have : (d.update (utf8 t.toList)).1.data = utf8 t.toList := by
      simp only [Pre.update, Pre.updateSize]; split <;> rfl
    simp only [showNode, setBody_self, this, utf8Dec_utf8, Except.map, hstr]

/-- C28. A field declared with a primitive reads back the value stored (wrapped to its width),
whatever else was declared before and after. -/
theorem C28_set_get_field (env : Env) (pre post : List BOp) (n : String) (kind : Option Kind) (enum : Option (Key Int))
    (len : Option Nat) (k : Kind) (hk : resolve env kind enum = some k) (hpost : ∀ op ∈ post, n ∉ op.names)
    (hops : ∀ op ∈ pre ++ .field n kind enum len :: post, op.Ok) (o : ByteOrder) (ho : o ≠ .native)
    (id : Int) (w : World) (ok : HeapOk w.heap) (v : World) (p : Proto)
    (b : (Proto.new w o id).2.steps env (Proto.new w o id).1 (pre ++ .field n kind enum len :: post) = .ok (v, p))
    (s : List (String × PVal)) (f : ∀ e ∈ s, (Lay.steps env o (pre ++ .field n kind enum len :: post)).Fits e.1 e.2)
    (x : Val) :
    p.value (p.setItem env (p.sets env v s) n (.val x)).1 n false = .ok (.val (storeVal k x)) := by
  obtain ⟨l1, r1, -⟩ := rep_steps env (rep_new w ok o ho id) _ hops v p b
  have hkeep : Keeps (Lay.addField env (pre.foldl (Lay.step env) (Lay.new o)) n k enum len true)
      (Lay.steps env o (pre ++ .field n kind enum len :: post)) n := by
    have := keeps_steps env post n hpost (Lay.step env (pre.foldl (Lay.step env) (Lay.new o)) (.field n kind enum len))
    simp only [Lay.step, hk, Option.getD_some] at this
    simp only [Lay.steps, List.foldl_append, List.foldl_cons, Lay.step, hk, Option.getD_some]
    exact this
  refine rep_get_field env (r1.sets env s f) n _ k (hkeep.regular.trans (dget_dset_self _ _ _)) ?_ x
  refine prefix_get hkeep.kinds _ _ ?_
  simp only [Lay.addField, kindsOf_addShape, Lay.count]
  rw [List.getElem?_append_right (Nat.le_refl _)]
  simp

/-- C28. A bit field reads back the value stored, modulo its width. -/
theorem C28_set_get_bits (env : Env) (pre post : List BOp) (n : String) (g : Bits.Group) (fd : Bits.Field)
    (hfd : dget g.fields n = some fd) (hpre : ∀ op ∈ pre, n ∉ op.names) (hpost : ∀ op ∈ post, n ∉ op.names)
    (hops : ∀ op ∈ pre ++ .bits g :: post, op.Ok) (o : ByteOrder) (ho : o ≠ .native)
    (id : Int) (w : World) (ok : HeapOk w.heap) (v : World) (p : Proto)
    (b : (Proto.new w o id).2.steps env (Proto.new w o id).1 (pre ++ .bits g :: post) = .ok (v, p))
    (s : List (String × PVal)) (f : ∀ e ∈ s, (Lay.steps env o (pre ++ .bits g :: post)).Fits e.1 e.2) (x : Int) :
    p.value (p.setItem env (p.sets env v s) n (.val (.int x))).1 n false
      = .ok (.val (if fd.width = 1 then .bool (x % 2 ≠ 0) else .int (x % 2 ^ fd.width))) := by
  obtain ⟨l1, r1, -⟩ := rep_steps env (rep_new w ok o ho id) _ hops v p b
  have k1 := keeps_steps env pre n hpre (Lay.new o)
  have k2 := keeps_steps env post n hpost (Lay.step env (pre.foldl (Lay.step env) (Lay.new o)) (.bits g))
  have he : post.foldl (Lay.step env) (Lay.step env (pre.foldl (Lay.step env) (Lay.new o)) (.bits g))
      = Lay.steps env o (pre ++ .bits g :: post) := by
    simp only [Lay.steps, List.foldl_append, List.foldl_cons]
  rw [he] at k2
  refine rep_get_bits env (r1.sets env s f) n (pre.foldl (Lay.step env) (Lay.new o)).count g.finalize fd
    (k2.regular.trans k1.regular) (k2.serials.trans k1.serials) ?_ x
  unfold Lay.findBits
  have hl : dget (Lay.steps env o (pre ++ .bits g :: post)).lookup n
      = some (pre.foldl (Lay.step env) (Lay.new o)).groups.length :=
    k2.lookup.trans (enterAll_self _ _ _ _ _ (List.mem_map.mpr ⟨_, dget_mem hfd, rfl⟩))
  have hg : (Lay.steps env o (pre ++ .bits g :: post)).groups[(pre.foldl (Lay.step env) (Lay.new o)).groups.length]?
      = some ((pre.foldl (Lay.step env) (Lay.new o)).count, g.finalize) := by
    refine prefix_get k2.groups _ _ ?_
    simp only [Lay.step, Lay.addBits]
    rw [List.getElem?_append_right (Nat.le_refl _)]
    simp
  change (match dget (Lay.steps env o (pre ++ BOp.bits g :: post)).lookup n with
    | none => Except.error PyErr.key
    | some idx => match (Lay.steps env o (pre ++ BOp.bits g :: post)).groups[idx]? with
      | none => .error .index
      | some g => match dget g.2.fields n with
        | none => .error .key
        | some f => .ok (g.1, g.2, f)) = _
  rw [hl]
  dsimp only
  rw [hg]
  dsimp only [Bits.Group.finalize]
  rw [hfd]

/-- C28. A chunk reads back the string stored. -/
theorem C28_set_get_chunk (env : Env) (pre post : List BOp) (n : String) (sp : SerSpec)
    (hsp : ∀ o ks, sp ≠ .array o ks) (hpre : ∀ op ∈ pre, n ∉ op.names) (hpost : ∀ op ∈ post, n ∉ op.names)
    (hops : ∀ op ∈ pre ++ .serial n sp :: post, op.Ok) (o : ByteOrder) (ho : o ≠ .native)
    (id : Int) (w : World) (ok : HeapOk w.heap) (v : World) (p : Proto)
    (b : (Proto.new w o id).2.steps env (Proto.new w o id).1 (pre ++ .serial n sp :: post) = .ok (v, p))
    (s : List (String × PVal)) (f : ∀ e ∈ s, (Lay.steps env o (pre ++ .serial n sp :: post)).Fits e.1 e.2) (t : String) :
    p.getItem (p.setItem env (p.sets env v s) n (.str t)).1 n = .ok (.str t) := by
  obtain ⟨l1, r1, -⟩ := rep_steps env (rep_new w ok o ho id) _ hops v p b
  have k1 := keeps_steps env pre n hpre (Lay.new o)
  have k2 := keeps_steps env post n hpost (Lay.step env (pre.foldl (Lay.step env) (Lay.new o)) (.serial n sp))
  have he : post.foldl (Lay.step env) (Lay.step env (pre.foldl (Lay.step env) (Lay.new o)) (.serial n sp))
      = Lay.steps env o (pre ++ .serial n sp :: post) := by
    simp only [Lay.steps, List.foldl_append, List.foldl_cons]
  rw [he] at k2
  have hna : ∀ o f, sp.shape ≠ .array o f := by
    intro o f h
    cases sp with
    | array o' ks => exact hsp _ _ rfl
    | fixed d => cases h
    | prefixed k o => cases h
  refine rep_get_chunk env (r1.sets env s f) n (pre.foldl (Lay.step env) (Lay.new o)).shapes.length sp.shape
    (k2.regular.trans k1.regular) (k2.serials.trans (dget_dset_self _ _ _)) (k2.shapes _ _ ?_ hna) hna t
  simp only [Lay.step, Lay.addSer]
  rw [List.getElem?_append_right (Nat.le_refl _)]
  simp

/-! ### Witnesses -/

def sampleEnv : Env := ⟨fun n => n != "", fun _ => none, fun _ => none, fun _ => none⟩

/-- A group of a flag, a field of three bits and padding. -/
def sampleGroup : Bits.Group :=
  (Bits.after sampleEnv.validName .uint8 [.pad 2 none 0, .field "mode" 3 none none true, .flag "on" none none true]).g

/-- A protocol with a field, a repeated field, bit-fields, chunks and an array. -/
def sampleOps : List BOp :=
  [.field "x" (some (.int .int16)) none none, .bits sampleGroup, .serial "name" (.prefixed .uint8 .big),
   .field "y" (some (.int .uint32)) none (some 2), .serial "tag" (.fixed [0x61, 0x62]), .serial "arr" (.array .little [.int .uint8]),
   .field "z" (some .bool) none none]

def sampleWorld : World := ⟨Heap.empty, []⟩

theorem sampleOps_ok : ∀ op ∈ sampleOps, op.Ok := by
  intro op h
  simp only [sampleOps, List.mem_cons, List.not_mem_nil, or_false] at h
  rcases h with rfl | rfl | rfl | rfl | rfl | rfl | rfl
  · trivial
  · exact C28_groups_ok _ _ _
  · trivial
  · trivial
  · trivial
  · show ByteOrder.little ≠ .native
    decide
  · trivial

/-- The sample protocol can be built. -/
def sampleProto : Except PyErr (World × Proto) :=
  (Proto.new sampleWorld .big 7).2.steps sampleEnv (Proto.new sampleWorld .big 7).1 sampleOps

example : sampleProto.toOption.isSome = true := by decide +kernel

/-- The sample protocol meets the hypotheses of the theorems: fields are set to fitting values. -/
def sampleSets : List (String × PVal) :=
  [("x", .val (.int (-3))), ("mode", .val (.int 5)), ("on", .val (.bool true)), ("name", .str "hé"), ("tag", .str "cd"),
   ("y", .val (.int 70000))]

example : ∀ e ∈ sampleSets, (Lay.steps sampleEnv .big sampleOps).Fits e.1 e.2 := by
  intro e h
  simp only [sampleSets, List.mem_cons, List.not_mem_nil, or_false] at h
  rcases h with rfl | rfl | rfl | rfl | rfl | rfl
  · intro kind hk
    cases hk
    show Spec.HasKind (.int .int16) (.int (wrap .int16 (-3)))
    decide +kernel
  · trivial
  · trivial
  · show ((utf8 "hé".toList).length : Int) ≤ Spec.hi .uint8
    decide +kernel
  · show (utf8 "cd".toList).length = 2
    decide +kernel
  · intro kind hk
    cases hk
    show Spec.HasKind (.int .uint32) (.int (wrap .uint32 70000))
    decide +kernel

/-- The bytes of the sample protocol: `x`, the bit-fields, the prefixed name, `y` twice (only the
first element is set by name), the tag, the array with `z` behind it. -/
example : (sampleProto.toOption.bind fun (w, p) => ((p.sets sampleEnv w sampleSets).heap.toStream p.arr).toOption)
    = some ([0xff, 0xfd, 0b1011, 3, 0x68, 0xc3, 0xa9, 0, 1, 0x11, 0x70, 0, 0, 0, 0, 0x63, 0x64, 0, 0], 19) := by
  decide +kernel

/-- Setting a field that was added behind an array changes what the array shows. -/
theorem C28_array_shows_field_fails :
    (sampleProto.toOption.map fun (w, p) =>
      ((p.getItem w "arr").toOption, (p.getItem (p.setItem sampleEnv w "z" (.val (.bool true))).1 "arr").toOption))
    = some (some (.cells [(.int .uint8, .int 0), (.bool, .bool false)]),
        some (.cells [(.int .uint8, .int 0), (.bool, .bool true)])) := by
  decide +kernel

end Verif.Protocol
