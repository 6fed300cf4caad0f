import Verif.Serial.Arrays
import Batteries.Tactic.Init
/-! Every reachable heap is well formed. -/
namespace Verif.Serial

open Verif.Wire

/-- `h'` has all objects of `h`, with the same kinds of primitives. -/
structure Le (h h' : Heap) : Prop where
  np : h.np ≤ h'.np
  nn : h.nn ≤ h'.nn
  kind : ∀ q, q < h.np → (h'.prim q).kind = (h.prim q).kind

theorem Le.refl (h : Heap) : Le h h := ⟨Nat.le_refl _, Nat.le_refl _, fun _ _ => rfl⟩

theorem Le.trans {a b c : Heap} (h1 : Le a b) (h2 : Le b c) : Le a c :=
  ⟨Nat.le_trans h1.np h2.np, Nat.le_trans h1.nn h2.nn, fun q hq => by
    rw [h2.kind q (Nat.lt_of_lt_of_le hq h1.np), h1.kind q hq]⟩

theorem ArrOk.mono {h h' : Heap} (hl : Le h h') {a : Arr} (ha : ArrOk h a) : ArrOk h' a := by
  refine ⟨?_, ha.size, fun r hr => Nat.lt_of_lt_of_le (ha.refs r hr) hl.np,
    fun f hf => Nat.lt_of_lt_of_le (ha.frags f hf) hl.nn, ha.toByte, ha.toIndex, ha.first, ha.last⟩
  rw [ha.fmt]
  apply List.map_congr_left
  intro r hr
  exact (hl.kind r (ha.refs r hr)).symm

/-- A well-formed later heap. -/
def Good (h h' : Heap) : Prop := HeapOk h' ∧ Le h h'

theorem Good.trans {a b c : Heap} (h1 : Good a b) (h2 : Good b c) : Good a c := ⟨h2.1, h1.2.trans h2.2⟩

theorem good_empty : HeapOk Heap.empty := by
  refine ⟨fun r => trivial, fun i a h => ?_, fun i j h => ?_, fun i _ => ⟨rfl, fun a ha => by cases ha⟩⟩
  · simp [Heap.empty] at h
  · simp [Heap.empty] at h

theorem good_setPrim (h : Heap) (hok : HeapOk h) (r : Nat) (v : Val)
    (hv : Spec.HasKind (h.prim r).kind (storeVal (h.prim r).kind v)) : Good h (h.setPrim r v) := by
  have hle : Le h (h.setPrim r v) := ⟨Nat.le_refl _, Nat.le_refl _, fun q _ => setPrim_kind h r v q⟩
  refine ⟨⟨fun q => ?_, fun i a hi => (hok.arrays i a hi).mono hle, hok.links, hok.unused⟩, hle⟩
  simp only [Heap.setPrim]
  split
  · exact hv
  · exact hok.typed q

theorem good_setAll (h : Heap) (hok : HeapOk h) (rs : List Nat) (vs : List Val)
    (hv : List.Forall₂ (fun r v => Spec.HasKind (h.prim r).kind v) rs vs) : Good h (h.setAll rs vs) := by
  obtain ⟨f1, f2, f3, f4, -⟩ := setAll_frame rs vs h
  have hle : Le h (h.setAll rs vs) := ⟨by omega, by omega, fun q _ => f4 q⟩
  refine ⟨⟨setAll_typed rs vs h hok.typed hv, fun i a hi => ?_, fun i j hi => ?_, fun i hi => ?_⟩, hle⟩
  · rw [f1] at hi; exact (hok.arrays i a hi).mono hle
  · rw [f1] at hi; rw [f3]; exact hok.links i j hi
  · rw [f1]; rw [f3] at hi; exact hok.unused i hi

theorem good_newPrim (h : Heap) (hok : HeapOk h) (k : Kind) (v : Val) (hv : Spec.HasKind k (storeVal k v)) :
    Good h (h.newPrim k v).1 := by
  have hle : Le h (h.newPrim k v).1 := by
    refine ⟨by simp only [Heap.newPrim]; omega, Nat.le_refl _, fun q hq => ?_⟩
    simp only [Heap.newPrim]
    rw [if_neg (by omega)]
  refine ⟨⟨fun q => ?_, fun i a hi => (hok.arrays i a hi).mono hle, hok.links, hok.unused⟩, hle⟩
  simp only [Heap.newPrim]
  split
  · exact hv
  · exact hok.typed q

theorem good_newNode (h : Heap) (hok : HeapOk h) (b : Body) (hb : ∀ a, b = .array a → ArrOk h a) :
    Good h (h.newNode b).1 := by
  have hle : Le h (h.newNode b).1 := ⟨Nat.le_refl _, by simp only [Heap.newNode]; omega, fun q _ => rfl⟩
  refine ⟨⟨hok.typed, fun i a hi => ?_, fun i j hi => ?_, fun i hi => ?_⟩, hle⟩
  · simp only [Heap.newNode] at hi
    split at hi
    · exact (hb a hi).mono hle
    · exact (hok.arrays i a hi).mono hle
  · simp only [Heap.newNode] at hi ⊢
    split at hi
    · cases hi
    · have := hok.links i j hi; omega
  · simp only [Heap.newNode] at hi ⊢
    rw [if_neg (by omega)]
    exact hok.unused i (by omega)

theorem good_setNode (h : Heap) (hok : HeapOk h) (i : Nat) (n : Node) (hi : i < h.nn)
    (hb : ∀ a, n.body = .array a → ArrOk h a) (hn : ∀ j, n.next = some j → j < h.nn) :
    Good h (h.setNode i n) := by
  have hle : Le h (h.setNode i n) := ⟨Nat.le_refl _, Nat.le_refl _, fun q _ => rfl⟩
  refine ⟨⟨hok.typed, fun k a hk => ?_, fun k j hk => ?_, fun k hk => ?_⟩, hle⟩
  · simp only [Heap.setNode] at hk
    split at hk
    · exact (hb a hk).mono hle
    · exact (hok.arrays k a hk).mono hle
  · simp only [Heap.setNode] at hk
    split at hk
    · exact hn j hk
    · exact hok.links k j hk
  · simp only [Heap.setNode] at hk ⊢
    rw [if_neg (by omega)]
    exact hok.unused k hk

theorem good_setBody (h : Heap) (hok : HeapOk h) (i : Nat) (b : Body) (hi : i < h.nn)
    (hb : ∀ a, b = .array a → ArrOk h a) : Good h (h.setBody i b) :=
  good_setNode h hok i _ hi hb (fun j hj => hok.links i j hj)

theorem good_setBody' (h : Heap) (hok : HeapOk h) (i : Nat) (b : Body)
    (hb : ∀ a, b ≠ .array a) : Good h (h.setBody i b) := by
  have hle : Le h (h.setBody i b) := ⟨Nat.le_refl _, Nat.le_refl _, fun q _ => rfl⟩
  refine ⟨⟨hok.typed, fun k a hk => ?_, fun k j hk => ?_, fun k hk => ?_⟩, hle⟩
  · simp only [Heap.setBody, Heap.setNode] at hk
    split at hk
    · exact absurd hk (hb a)
    · exact (hok.arrays k a hk).mono hle
  · simp only [Heap.setBody, Heap.setNode] at hk
    split at hk
    · rename_i e; subst e; exact hok.links k j hk
    · exact hok.links k j hk
  · simp only [Heap.setBody, Heap.setNode] at hk ⊢
    split
    · rename_i e; subst e; exact ⟨(hok.unused k hk).1, hb⟩
    · exact hok.unused k hk

/-! ### Building arrays -/

theorem foldl_push (k : Kind) (rs : List Nat) (a : Arr) :
    rs.foldl (fun a r => a.push k r) a = { a with
      prims := a.prims ++ rs, fmt := a.fmt ++ List.replicate rs.length k,
      size := a.size + rs.length * k.size } := by
  induction rs generalizing a with
  | nil => simp
  | cons r rest ih =>
    rw [List.foldl_cons, ih]
    simp only [Arr.push, List.append_assoc, List.singleton_append, List.length_cons, List.replicate_succ,
      Arr.mk.injEq, and_true, true_and]
    rw [Nat.succ_mul]; omega

theorem sum_take_le_all (l : List Nat) (i : Nat) : (l.take i).sum ≤ l.sum := by
  have := sum_take_le l (min i l.length) l.length (Nat.min_le_right _ _)
  rw [List.take_length] at this
  by_cases h : i ≤ l.length
  · rwa [Nat.min_eq_left h] at this
  · rw [List.take_of_length_le (by omega)]; exact Nat.le_refl _

theorem ArrOk.pushMark {h : Heap} {a : Arr} (ha : ArrOk h a) (k : Kind) (rs : List Nat) (hne : rs ≠ [])
    (hr : ∀ r ∈ rs, r < h.np ∧ (h.prim r).kind = k) :
    ArrOk h (rs.foldl (fun a r => a.push k r) a).mark := by
  rw [foldl_push]
  have hrep : List.replicate rs.length k = rs.map (fun r => (h.prim r).kind) := by
    clear hne
    induction rs with
    | nil => rfl
    | cons r rest ih =>
      rw [List.length_cons, List.replicate_succ, List.map_cons, (hr r List.mem_cons_self).2,
        ih (fun r hr' => hr r (List.mem_cons_of_mem _ hr'))]
  have hlen : 0 < rs.length := List.length_pos_of_ne_nil hne
  have hks : 0 < rs.length * k.size := Nat.mul_pos hlen (kind_size_pos k)
  have hfl : a.fmt.length = a.prims.length := by rw [ha.fmt, List.length_map]
  have hsum : ∀ i, i ≤ a.prims.length →
      (((a.fmt ++ List.replicate rs.length k).take i).map Kind.size).sum = ((a.fmt.take i).map Kind.size).sum := by
    intro i hi
    rw [List.take_append_of_le_length (by omega)]
  have hle : ∀ i b, dget a.toByte i = some b → i ≤ a.prims.length ∧ b ≤ a.size := by
    intro i b hb
    obtain ⟨h1, h2⟩ := ha.toByte i b hb
    refine ⟨h1, ?_⟩
    rw [h2, ha.size, List.map_take]
    exact sum_take_le_all _ _
  refine ⟨?_, ?_, ?_, ha.frags, ?_, ?_, ?_, ?_⟩
  · simp only [Arr.mark, List.map_append]
    rw [hrep, ← ha.fmt]
  · simp only [Arr.mark]
    rw [ha.size, List.map_append, List.sum_append, List.map_replicate]
    simp
  · intro r hr'
    simp only [Arr.mark] at hr'
    rcases List.mem_append.mp hr' with h' | h'
    · exact ha.refs r h'
    · exact (hr r h').1
  · intro i b hb
    simp only [Arr.mark, List.length_append] at hb ⊢
    rw [dget_dset] at hb
    by_cases hi : a.prims.length + rs.length = i
    · rw [if_pos hi] at hb
      cases hb
      refine ⟨by omega, ?_⟩
      rw [List.take_of_length_le (by simp; omega), List.map_append, List.sum_append, List.map_replicate,
        ha.size]
      simp
    · rw [if_neg hi] at hb
      obtain ⟨h1, h2⟩ := ha.toByte i b hb
      exact ⟨by omega, by rw [hsum i h1]; exact h2⟩
  · intro b i
    simp only [Arr.mark, List.length_append]
    rw [dget_dset, dget_dset]
    by_cases hb : a.size + rs.length * k.size = b
    · rw [if_pos hb]
      by_cases hi : a.prims.length + rs.length = i
      · rw [if_pos hi, hb, hi]; exact ⟨fun _ => rfl, fun _ => rfl⟩
      · rw [if_neg hi]
        constructor
        · intro h'; exact absurd (Option.some.inj h') hi
        · intro h'; have := (hle i b h').2; omega
    · rw [if_neg hb, ha.toIndex b i]
      by_cases hi : a.prims.length + rs.length = i
      · rw [if_pos hi]
        constructor
        · intro h'; have := (hle i b h').1; omega
        · intro h'; exact absurd (Option.some.inj h') hb
      · rw [if_neg hi]
  · simp only [Arr.mark, List.length_append]
    rw [dget_dset, if_neg (by omega)]; exact ha.first
  · simp only [Arr.mark, List.length_append]
    rw [dget_dset_self]

theorem ArrOk.empty (h : Heap) (o : ByteOrder) : ArrOk h (Arr.empty o) := by
  refine ⟨rfl, rfl, fun r hr => (by cases hr), fun f hf => (by cases hf), fun i b hb => ?_, fun b i => ?_, rfl, rfl⟩
  · simp only [Arr.empty, dget_cons, dget_nil] at hb
    split at hb
    · rename_i e; subst e; exact ⟨Nat.le_refl _, (Option.some.inj hb).symm⟩
    · cases hb
  · simp only [Arr.empty, dget_cons, dget_nil]
    by_cases h1 : 0 = b
    · by_cases h2 : 0 = i
      · subst h1; subst h2; exact Iff.rfl
      · rw [if_pos h1, if_neg h2]
        exact ⟨fun h' => absurd (Option.some.inj h') h2, fun h' => by cases h'⟩
    · by_cases h2 : 0 = i
      · rw [if_neg h1, if_pos h2]
        exact ⟨fun h' => (by cases h'), fun h' => absurd (Option.some.inj h') h1⟩
      · rw [if_neg h1, if_neg h2]
        exact ⟨fun h' => (by cases h'), fun h' => by cases h'⟩

theorem addAll_ok (h : Heap) (refs : List Nat) (a : Arr) (ha : ArrOk h a) (hr : ∀ r ∈ refs, r < h.np) :
    ArrOk h (Arr.addAll h a refs) ∧ (Arr.addAll h a refs).prims = a.prims ++ refs
    ∧ (Arr.addAll h a refs).order = a.order ∧ (Arr.addAll h a refs).frags = a.frags
    ∧ (Arr.addAll h a refs).specs = a.specs := by
  induction refs generalizing a with
  | nil => exact ⟨ha, (List.append_nil _).symm, rfl, rfl, rfl⟩
  | cons r rest ih =>
    have h1 := ha.pushMark (h.prim r).kind [r] (by simp)
      (fun q hq => by rw [List.mem_singleton.mp hq]; exact ⟨hr r List.mem_cons_self, rfl⟩)
    obtain ⟨i1, i2, i3, i4, i5⟩ := ih _ h1 (fun q hq => hr q (List.mem_cons_of_mem _ hq))
    refine ⟨i1, ?_, i3, i4, i5⟩
    simp only [Arr.addAll]
    refine i2.trans ?_
    simp [Arr.mark, Arr.push]

theorem good_newArray (h : Heap) (hok : HeapOk h) (o : ByteOrder) (refs : List Nat)
    (hr : ∀ r ∈ refs, r < h.np) : Good h (h.newArray o refs).1 := by
  refine good_newNode h hok _ (fun a ha => ?_)
  cases ha
  exact (addAll_ok h refs _ (ArrOk.empty h o) hr).1

theorem newNode_self (h : Heap) (b : Body) : ((h.newNode b).1.node h.nn) = ⟨b, none⟩ := by
  simp [Heap.newNode]

theorem newNode_ne (h : Heap) (b : Body) (i : Nat) (hi : i ≠ h.nn) : (h.newNode b).1.node i = h.node i := by
  simp [Heap.newNode, hi]

theorem good_addFragment (h : Heap) (hok : HeapOk h) (i : Nat) (a : Arr) (hi : (h.node i).body = .array a)
    (hin : i < h.nn) (s : FragSpec) : Good h (h.addFragment i a s).1 := by
  have ha := hok.arrays i a hi
  have hr : ∀ r ∈ (a.prims.take s.indexEnd).drop s.indexStart, r < h.np := fun r hr =>
    ha.refs r (List.mem_of_mem_take (List.mem_of_mem_drop hr))
  have g1 := good_newArray h hok a.order _ hr
  refine g1.trans (good_setBody _ g1.1 i _ (Nat.lt_of_lt_of_le hin g1.2.nn) (fun b hb => ?_))
  cases hb
  have ha' := ha.mono g1.2
  refine ⟨ha'.fmt, ha'.size, ha'.refs, fun f hf => ?_, ha'.toByte, ha'.toIndex, ha'.first, ha'.last⟩
  rcases List.mem_append.mp hf with h' | h'
  · exact ha'.frags f h'
  · rw [List.mem_singleton.mp h']
    simp [Heap.newArray, Heap.newNode]

theorem good_addFragments (specs : List FragSpec) (h : Heap) (hok : HeapOk h) (i : Nat) (hin : i < h.nn) :
    Good h (h.addFragments i specs) := by
  induction specs generalizing h with
  | nil => exact ⟨hok, Le.refl h⟩
  | cons s rest ih =>
    unfold Heap.addFragments
    cases hb : (h.node i).body with
    | array a =>
      have g1 := good_addFragment h hok i a hb hin s
      exact g1.trans (ih _ g1.1 (Nat.lt_of_lt_of_le hin g1.2.nn))
    | fixed d => exact ⟨hok, Le.refl h⟩
    | prefixed p => exact ⟨hok, Le.refl h⟩

/-- Copies of primitives: fresh, same kinds and values. -/
theorem copyPrims_spec (refs : List Nat) (h : Heap) (hok : HeapOk h) (hr : ∀ r ∈ refs, r < h.np) :
    Good h (h.copyPrims refs).1
    ∧ (h.copyPrims refs).2.length = refs.length
    ∧ (h.copyPrims refs).2.map (fun q => (h.copyPrims refs).1.prim q) = refs.map (fun r => h.prim r)
    ∧ (∀ q ∈ (h.copyPrims refs).2, h.np ≤ q ∧ q < (h.copyPrims refs).1.np)
    ∧ (h.copyPrims refs).2.Nodup
    ∧ (∀ q, q < h.np → (h.copyPrims refs).1.prim q = h.prim q)
    ∧ (h.copyPrims refs).1.node = h.node ∧ (h.copyPrims refs).1.nn = h.nn := by
  induction refs generalizing h with
  | nil =>
    exact ⟨⟨hok, Le.refl h⟩, rfl, rfl, fun q hq => (by cases hq), .nil, fun _ _ => rfl, rfl, rfl⟩
  | cons r rest ih =>
    have hst : storeVal (h.prim r).kind (h.prim r).val = (h.prim r).val := storeVal_of_hasKind (hok.typed r)
    have g1 := good_newPrim h hok (h.prim r).kind (h.prim r).val (by rw [hst]; exact hok.typed r)
    have hp : ∀ q, q < h.np → (h.newPrim (h.prim r).kind (h.prim r).val).1.prim q = h.prim q := by
      intro q hq; simp only [Heap.newPrim]; rw [if_neg (by omega)]
    have hself : (h.newPrim (h.prim r).kind (h.prim r).val).1.prim h.np = h.prim r := by
      simp [Heap.newPrim, hst]
    have hnp : (h.newPrim (h.prim r).kind (h.prim r).val).1.np = h.np + 1 := rfl
    obtain ⟨i1, i2, i3, i4, i5, i6, i7, i8⟩ := ih (h.newPrim (h.prim r).kind (h.prim r).val).1 g1.1
      (fun q hq => by rw [hnp]; have := hr q (List.mem_cons_of_mem _ hq); omega)
    have e1 : h.copyPrims (r :: rest) = (((h.newPrim (h.prim r).kind (h.prim r).val).1.copyPrims rest).1,
      h.np :: ((h.newPrim (h.prim r).kind (h.prim r).val).1.copyPrims rest).2) := rfl
    rw [e1]
    generalize hH : (h.newPrim (h.prim r).kind (h.prim r).val).1 = H at *
    refine ⟨g1.trans i1, by simp [i2], ?_, ?_, ?_, ?_, i7.trans ?_, i8.trans ?_⟩
    · simp only [List.map_cons]
      rw [i6 h.np (by omega), hself, i3]
      congr 1
      exact List.map_congr_left (fun q hq => hp q (hr q (List.mem_cons_of_mem _ hq)))
    · intro q hq
      rcases List.mem_cons.mp hq with rfl | hq
      · exact ⟨Nat.le_refl _, Nat.lt_of_lt_of_le (by omega) i1.2.np⟩
      · have := i4 q hq; exact ⟨by omega, this.2⟩
    · refine List.nodup_cons.mpr ⟨fun hm => ?_, i5⟩
      have := (i4 _ hm).1; omega
    · intro q hq
      rw [i6 q (by omega), hp q hq]
    · rw [← hH]; rfl
    · rw [← hH]; rfl

theorem good_copyOne (h : Heap) (hok : HeapOk h) (i : Nat) :
    Good h (h.copyOne i).1 ∧ h.nn ≤ (h.copyOne i).2 ∧ (h.copyOne i).2 < (h.copyOne i).1.nn := by
  unfold Heap.copyOne
  cases hb : (h.node i).body with
  | array a =>
    have ha := hok.arrays i a hb
    obtain ⟨i1, i2, i3, i4, i5, i6, i7, i8⟩ := copyPrims_spec a.prims h hok ha.refs
    have g2 := good_newArray (h.copyPrims a.prims).1 i1.1 a.order (h.copyPrims a.prims).2 (fun r hr => (i4 r hr).2)
    have hlt : (h.copyPrims a.prims).1.nn
        < ((h.copyPrims a.prims).1.newArray a.order (h.copyPrims a.prims).2).1.nn := by
      simp [Heap.newArray, Heap.newNode]
    have g3 := good_addFragments a.specs _ g2.1 (h.copyPrims a.prims).1.nn hlt
    refine ⟨(i1.trans g2).trans g3, ?_, Nat.lt_of_lt_of_le hlt g3.2.nn⟩
    show h.nn ≤ (h.copyPrims a.prims).1.nn
    omega
  | fixed d =>
    exact ⟨good_newNode h hok _ (fun a ha => by cases ha), Nat.le_refl _, by simp [Heap.newNode]⟩
  | prefixed p =>
    exact ⟨good_newNode h hok _ (fun a ha => by cases ha), Nat.le_refl _, by simp [Heap.newNode]⟩

theorem good_copyAll (l : List Nat) (h : Heap) (hok : HeapOk h) :
    Good h (h.copyAll l).1 ∧ ∀ j, (h.copyAll l).2 = some j → j < (h.copyAll l).1.nn := by
  induction l generalizing h with
  | nil => exact ⟨⟨hok, Le.refl h⟩, fun j hj => by cases hj⟩
  | cons i rest ih =>
    obtain ⟨g1, g2, g3⟩ := good_copyOne h hok i
    obtain ⟨k1, k2⟩ := ih (h.copyOne i).1 g1.1
    have hlt := Nat.lt_of_lt_of_le g3 k1.2.nn
    simp only [Heap.copyAll]
    refine ⟨(g1.trans k1).trans (good_setNode _ k1.1 _ _ hlt (fun a ha => k1.1.arrays _ a ha) k2), ?_⟩
    intro j hj
    cases hj
    exact hlt

theorem good_copy (h : Heap) (hok : HeapOk h) (i : Nat) :
    Good h (h.copy i).1 ∧ ∀ j, (h.copy i).2 = .ok j → j < (h.copy i).1.nn := by
  unfold Heap.copy
  cases h.chain i with
  | error e => exact ⟨⟨hok, Le.refl h⟩, fun j hj => by cases hj⟩
  | ok l =>
    obtain ⟨g1, g2⟩ := good_copyAll l h hok
    dsimp only
    cases hc : h.copyAll l with
    | mk h' o =>
      rw [hc] at g1 g2
      cases o with
      | none => exact ⟨g1, fun j hj => by cases hj⟩
      | some j =>
        exact ⟨g1, fun k hk => by cases hk; exact g2 j rfl⟩

theorem good_assign (h : Heap) (hok : HeapOk h) (i j : Nat) (hi : i < h.nn) (hj : j < h.nn) :
    Good h (h.assign i j).1 := by
  unfold Heap.assign
  cases hn : (h.node i).next with
  | some _ => exact ⟨hok, Le.refl h⟩
  | none =>
    exact good_setNode h hok i _ hi (fun a ha => hok.arrays i a ha) (fun k hk => by cases hk; exact hj)

theorem walk_lt (h : Heap) (hok : HeapOk h) (fuel i : Nat) (hi : i < h.nn) (l : List Nat)
    (hw : h.walk fuel i = some l) : l ≠ [] ∧ ∀ k ∈ l, k < h.nn := by
  induction fuel generalizing i l with
  | zero => cases hw
  | succ fuel ih =>
    unfold Heap.walk at hw
    cases hn : (h.node i).next with
    | none =>
      rw [hn] at hw
      cases hw
      exact ⟨by simp, fun k hk => by rw [List.mem_singleton.mp hk]; exact hi⟩
    | some j =>
      rw [hn] at hw
      dsimp only at hw
      cases hr : h.walk fuel j with
      | none => rw [hr] at hw; cases hw
      | some l' =>
        rw [hr] at hw
        cases hw
        obtain ⟨-, h2⟩ := ih j (hok.links i j hn) l' hr
        refine ⟨by simp, fun k hk => ?_⟩
        rcases List.mem_cons.mp hk with rfl | hk
        · exact hi
        · exact h2 k hk

theorem chain_walk {h : Heap} {i : Nat} {l : List Nat} (hc : h.chain i = .ok l) : h.walk h.nn i = some l := by
  unfold Heap.chain at hc
  cases hw : h.walk h.nn i with
  | none => rw [hw] at hc; cases hc
  | some l' => rw [hw] at hc; cases hc; rfl

theorem lastOf_lt (h : Heap) (hok : HeapOk h) (i e : Nat) (hi : i < h.nn) (he : h.lastOf i = .ok e) :
    e < h.nn := by
  unfold Heap.lastOf at he
  cases hc : h.chain i with
  | error x => rw [hc] at he; cases he
  | ok l =>
    rw [hc] at he
    have : l.getLastD i = e := by simpa [Except.map] using he
    obtain ⟨h1, h2⟩ := walk_lt h hok _ i hi l (chain_walk hc)
    rw [← this]
    have hm : l.getLastD i ∈ l := by
      cases l with
      | nil => exact absurd rfl h1
      | cons x xs => 
        rw [List.getLastD_cons, List.getLastD_eq_getLast?]
        cases hx : xs.getLast? with
        | none => simp
        | some y => exact List.mem_cons_of_mem _ (List.mem_of_getLast? hx)
    exact h2 _ hm

theorem good_addCopies (n : Nat) (h : Heap) (hok : HeapOk h) (i base size : Nat) (hi : i < h.nn) :
    Good h (h.addCopies i base n size).1 := by
  induction n generalizing h size with
  | zero => exact ⟨hok, Le.refl h⟩
  | succ n ih =>
    unfold Heap.addCopies
    obtain ⟨g1, g2⟩ := good_copy h hok base
    cases hc : h.copy base with
    | mk h1 res =>
      rw [hc] at g1 g2
      cases res with
      | error e => exact g1
      | ok c =>
        dsimp only at g1 g2 ⊢
        have hi1 := Nat.lt_of_lt_of_le hi g1.2.nn
        cases hl : h1.lastOf i with
        | error e => exact g1
        | ok e =>
          dsimp only
          have g3 := good_assign h1 g1.1 e c (lastOf_lt h1 g1.1 i e hi1 hl) (g2 c rfl)
          cases ha : h1.assign e c with
          | mk h2 res =>
            rw [ha] at g3
            cases res with
            | error e => exact g1.trans g3
            | ok s => exact (g1.trans g3).trans (ih h2 g3.1 _ (Nat.lt_of_lt_of_le hi1 g3.2.nn))

theorem good_linkEnd (h : Heap) (hok : HeapOk h) (i j base : Nat) (len : Option Nat) (hi : i < h.nn)
    (hj : j < h.nn) : Good h (match h.lastOf i with
    | .error e => (h, (.error e : Except PyErr Nat))
    | .ok e =>
      match h.assign e j with
      | (h, .error x) => (h, .error x)
      | (h, .ok s) =>
        match len with
        | none => (h, .ok s)
        | some n => h.addCopies i base (n - 1) s).1 := by
  cases hl : h.lastOf i with
  | error e => exact ⟨hok, Le.refl h⟩
  | ok e =>
    dsimp only
    have g3 := good_assign h hok e j (lastOf_lt h hok i e hi hl) hj
    cases ha : h.assign e j with
    | mk h2 res =>
      rw [ha] at g3
      cases res with
      | error e => exact g3
      | ok s =>
        cases len with
        | none => exact g3
        | some n => exact g3.trans (good_addCopies _ h2 g3.1 i base s (Nat.lt_of_lt_of_le hi g3.2.nn))

theorem good_addToEnd (h : Heap) (hok : HeapOk h) (i j : Nat) (len : Option Nat) (hi : i < h.nn)
    (hj : j < h.nn) : Good h (h.addToEnd i j len).1 := by
  cases len with
  | none => exact good_linkEnd h hok i j j none hi hj
  | some n =>
    unfold Heap.addToEnd
    dsimp only
    have g1 := (good_copy h hok j).1
    cases hc : h.copy j with
    | mk h1 res =>
      rw [hc] at g1
      cases res with
      | error e => exact g1
      | ok base =>
        exact g1.trans (good_linkEnd h1 g1.1 i j base (some n) (Nat.lt_of_lt_of_le hi g1.2.nn)
          (Nat.lt_of_lt_of_le hj g1.2.nn))

theorem good_pushMany (h : Heap) (hok : HeapOk h) (i : Nat) (a : Arr) (hi : (h.node i).body = .array a)
    (hin : i < h.nn) (r : Nat) (hr : r < h.np) (len : Option Nat) :
    Good h (h.pushMany i a r len).1 := by
  unfold Heap.pushMany
  have ha := hok.arrays i a hi
  obtain ⟨i1, i2, i3, i4, i5, i6, i7, i8⟩ := copyPrims_spec (List.replicate (len.getD 1 - 1) r) h hok
    (fun q hq => by rw [List.eq_of_mem_replicate hq]; exact hr)
  dsimp only
  generalize h.copyPrims (List.replicate (len.getD 1 - 1) r) = c at *
  refine i1.trans (good_setBody c.1 i1.1 i _ (Nat.lt_of_lt_of_le hin i1.2.nn) (fun b hb => ?_))
  cases hb
  apply (ha.mono i1.2).pushMark _ _ (by simp)
  intro q hq
  rcases List.mem_cons.mp hq with rfl | hq
  · exact ⟨Nat.lt_of_lt_of_le hr i1.2.np, i1.2.kind q hr⟩
  · refine ⟨(i4 q hq).2, ?_⟩
    have : c.1.prim q ∈ c.2.map (fun q => c.1.prim q) := List.mem_map_of_mem hq
    rw [i3, List.map_replicate] at this
    rw [List.eq_of_mem_replicate this]

theorem good_add (h : Heap) (hok : HeapOk h) (i r : Nat) (len : Option Nat) (hi : i < h.nn) (hr : r < h.np) :
    Good h (h.add i r len).1 := by
  unfold Heap.add
  cases hb : (h.node i).body with
  | fixed d => exact ⟨hok, Le.refl h⟩
  | prefixed p => exact ⟨hok, Le.refl h⟩
  | array self =>
    dsimp only
    cases hl : h.lastOf i with
    | error e => exact ⟨hok, Le.refl h⟩
    | ok e =>
      dsimp only
      have he := lastOf_lt h hok i e hi hl
      have hnew : Good h (match (h.newArray self.order []).1.assign e (h.newArray self.order []).2 with
          | (h, .error x) => (h, (.error x : Except PyErr Nat))
          | (h', .ok _) =>
            match (h'.node (h.newArray self.order []).2).body with
            | .array a => ((h'.pushMany (h.newArray self.order []).2 a r len).1,
                .ok (h'.pushMany (h.newArray self.order []).2 a r len).2)
            | _ => (h', .error .attribute)).1 := by
        have g1 := good_newArray h hok self.order [] (fun q hq => by cases hq)
        have hj : (h.newArray self.order []).2 < (h.newArray self.order []).1.nn := by
          simp [Heap.newArray, Heap.newNode]
        have g2 := good_assign _ g1.1 e (h.newArray self.order []).2 (Nat.lt_of_lt_of_le he g1.2.nn) hj
        cases ha : (h.newArray self.order []).1.assign e (h.newArray self.order []).2 with
        | mk h2 res =>
          rw [ha] at g2
          cases res with
          | error x => exact g1.trans g2
          | ok s =>
            dsimp only at g2 ⊢
            cases hb2 : (h2.node (h.newArray self.order []).2).body with
            | array a =>
              exact (g1.trans g2).trans (good_pushMany h2 g2.1 _ a hb2 (Nat.lt_of_lt_of_le hj g2.2.nn) r
                (Nat.lt_of_lt_of_le hr (Nat.le_trans g1.2.np g2.2.np)) len)
            | fixed d => exact g1.trans g2
            | prefixed p => exact g1.trans g2
      cases hbe : (h.node e).body with
      | array a => exact good_pushMany h hok e a hbe he r hr len
      | fixed d => exact hnew
      | prefixed p => exact hnew

theorem good_update (h : Heap) (hok : HeapOk h) (i : Nat) (hi : i < h.nn) (data : Bytes) :
    Good h (h.update i data).1 := by
  unfold Heap.update
  cases hb : (h.node i).body with
  | array a =>
    dsimp only
    cases hu : unpack a.order a.fmt data with
    | error e => exact ⟨hok, Le.refl h⟩
    | ok vs =>
      have hu' : unpackFrom a.order 0 a.fmt data = .ok vs := by
        unfold unpack at hu; split at hu
        · exact hu
        · cases hu
      exact good_setAll h hok _ _ (forall2_kinds h a (hok.arrays i a hb) vs
        (unpackFrom_kinds _ _ _ _ _ hu'))
  | fixed d => exact good_setBody h hok i _ hi (fun a ha => by cases ha)
  | prefixed p => exact good_setBody h hok i _ hi (fun a ha => by cases ha)

theorem good_fromStreamOne (h : Heap) (hok : HeapOk h) (i : Nat) (hi : i < h.nn) (s : Bytes) :
    Good h (h.fromStreamOne i s).1 := by
  have hgen : ∀ n, Good h (match h.update i (s.take n) with
      | (h, .error e) => (h, (.error e : Except PyErr (Nat × Bytes)))
      | (h, .ok m) => (h, .ok (m, s.drop n))).1 := by
    intro n
    have g := good_update h hok i hi (s.take n)
    cases hu : h.update i (s.take n) with
    | mk h1 res =>
      rw [hu] at g
      cases res <;> exact g
  unfold Heap.fromStreamOne
  cases hb : (h.node i).body with
  | array a => exact hgen _
  | fixed d => exact hgen _
  | prefixed p =>
    dsimp only
    cases decodeInt p.kind p.order (s.take p.kind.size) with
    | error e => exact ⟨hok, Le.refl h⟩
    | ok v =>
      dsimp only
      generalize Pre.updateSize { p with pfx := v, data := (s.drop p.kind.size).take v.toNat } = q
      obtain ⟨p', res⟩ := q
      cases res <;> exact good_setBody h hok i _ hi (fun a ha => by cases ha)

theorem good_readAll (l : List Nat) (h : Heap) (hok : HeapOk h) (hl : ∀ i ∈ l, i < h.nn) (s : Bytes) :
    Good h (h.readAll l s).1 := by
  induction l generalizing h s with
  | nil => exact ⟨hok, Le.refl h⟩
  | cons i rest ih =>
    unfold Heap.readAll
    have g1 := good_fromStreamOne h hok i (hl i List.mem_cons_self) s
    cases e1 : h.fromStreamOne i s with
    | mk h1 res =>
      rw [e1] at g1
      cases res with
      | error e => exact g1
      | ok ns =>
        obtain ⟨n, s'⟩ := ns
        dsimp only at g1 ⊢
        have g2 := ih h1 g1.1 (fun k hk => Nat.lt_of_lt_of_le (hl k (List.mem_cons_of_mem _ hk)) g1.2.nn) s'
        cases e2 : h1.readAll rest s' with
        | mk h2 res =>
          rw [e2] at g2
          cases res with
          | error e => exact g1.trans g2
          | ok ms => exact g1.trans g2

theorem good_fromStream (h : Heap) (hok : HeapOk h) (i : Nat) (hi : i < h.nn) (s : Bytes) :
    Good h (h.fromStream i s).1 := by
  unfold Heap.fromStream
  cases hc : h.chain i with
  | error e => exact ⟨hok, Le.refl h⟩
  | ok l => exact good_readAll l h hok (walk_lt h hok _ i hi l (chain_walk hc)).2 s

theorem good_frag (h : Heap) (hok : HeapOk h) (i start : Nat) (e : Option Nat) (hi : i < h.nn) :
    Good h (h.fragIndices i start e).1 ∧ Good h (h.fragBytes i start e).1 := by
  unfold Heap.fragIndices Heap.fragBytes
  cases hb : (h.node i).body with
  | array a =>
    dsimp only
    constructor
    · cases a.indexSpec start e with
      | error x => exact ⟨hok, Le.refl h⟩
      | ok s => exact good_addFragment h hok i a hb hi s
    · cases a.byteSpec start e with
      | error x => exact ⟨hok, Le.refl h⟩
      | ok s => exact good_addFragment h hok i a hb hi s
  | fixed d => exact ⟨⟨hok, Le.refl h⟩, ⟨hok, Le.refl h⟩⟩
  | prefixed p => exact ⟨⟨hok, Le.refl h⟩, ⟨hok, Le.refl h⟩⟩

/-- The heaps a program can reach. References are those of existing objects; values are ones the
primitive can store. -/
inductive Reach : Heap → Prop where
  | empty : Reach Heap.empty
  | newPrim {h : Heap} (k : Kind) (v : Val) : Reach h → Spec.HasKind k (storeVal k v) → Reach (h.newPrim k v).1
  | setPrim {h : Heap} (r : Nat) (v : Val) : Reach h →
      Spec.HasKind (h.prim r).kind (storeVal (h.prim r).kind v) → Reach (h.setPrim r v)
  | newArray {h : Heap} (o : ByteOrder) (refs : List Nat) : Reach h → (∀ r ∈ refs, r < h.np) →
      Reach (h.newArray o refs).1
  | newFixed {h : Heap} (d : Bytes) : Reach h → Reach (h.newNode (.fixed d)).1
  | newPrefixed {h : Heap} (k : IntKind) (o : ByteOrder) (v : Int) : Reach h → Reach (h.newPrefixed k o v).1
  | add {h : Heap} (i r : Nat) (len : Option Nat) : Reach h → i < h.nn → r < h.np → Reach (h.add i r len).1
  | assign {h : Heap} (i j : Nat) : Reach h → i < h.nn → j < h.nn → Reach (h.assign i j).1
  | addToEnd {h : Heap} (i j : Nat) (len : Option Nat) : Reach h → i < h.nn → j < h.nn →
      Reach (h.addToEnd i j len).1
  | copy {h : Heap} (i : Nat) : Reach h → Reach (h.copy i).1
  | update {h : Heap} (i : Nat) (data : Bytes) : Reach h → i < h.nn → Reach (h.update i data).1
  | fromStream {h : Heap} (i : Nat) (s : Bytes) : Reach h → i < h.nn → Reach (h.fromStream i s).1
  | fragIndices {h : Heap} (i start : Nat) (e : Option Nat) : Reach h → i < h.nn →
      Reach (h.fragIndices i start e).1
  | fragBytes {h : Heap} (i start : Nat) (e : Option Nat) : Reach h → i < h.nn →
      Reach (h.fragBytes i start e).1
  | reset {h : Heap} (i : Nat) (a : Arr) : Reach h → i < h.nn → (h.node i).body = .array a →
      Reach (h.setBody i (.array a.reset))

/-- C20, C21. Every reachable heap is well formed, so the theorems about well-formed heaps speak
about every program: arrays built in any way, with repeated elements, fragments, chains, copies,
resets, refused operations. -/
theorem C20_reachable (h : Heap) (hr : Reach h) : HeapOk h := by
  induction hr with
  | empty => exact good_empty
  | newPrim k v _ hv ih => exact (good_newPrim _ ih k v hv).1
  | setPrim r v _ hv ih => exact (good_setPrim _ ih r v hv).1
  | newArray o refs _ hv ih => exact (good_newArray _ ih o refs hv).1
  | newFixed d _ ih => exact (good_newNode _ ih _ (fun a ha => by cases ha)).1
  | newPrefixed k o v _ ih =>
    unfold Heap.newPrefixed
    split
    · exact ih
    · exact (good_newNode _ ih _ (fun a ha => by cases ha)).1
  | add i r len _ h1 h2 ih => exact (good_add _ ih i r len h1 h2).1
  | assign i j _ h1 h2 ih => exact (good_assign _ ih i j h1 h2).1
  | addToEnd i j len _ h1 h2 ih => exact (good_addToEnd _ ih i j len h1 h2).1
  | copy i _ ih => exact (good_copy _ ih i).1.1
  | update i data _ h1 ih => exact (good_update _ ih i h1 data).1
  | fromStream i s _ h1 ih => exact (good_fromStream _ ih i h1 s).1
  | fragIndices i st e _ h1 ih => exact (good_frag _ ih i st e h1).1.1
  | fragBytes i st e _ h1 ih => exact (good_frag _ ih i st e h1).2.1
  | reset i a _ h1 h2 ih =>
    exact (good_setBody _ ih i _ h1 (fun b hb => by cases hb; exact ArrOk.empty _ _)).1

/-! ### Fragments, C21 -/

theorem addFragment_isFrag (h : Heap) (hok : HeapOk h) (i : Nat) (a : Arr) (hi : (h.node i).body = .array a)
    (hin : i < h.nn) (s : FragSpec) (hse : s.indexStart ≤ s.indexEnd) (hel : s.indexEnd ≤ a.prims.length) :
    ∃ f, (h.addFragment i a s).1.fragment i (h.addFragment i a s).2 = .ok f
      ∧ IsFrag (h.addFragment i a s).1 i f s.indexStart s.indexEnd
      ∧ ∀ k, k < h.nn → k ≠ i → (h.addFragment i a s).1.node k = h.node k := by
  have ha := hok.arrays i a hi
  have hr : ∀ r ∈ (a.prims.take s.indexEnd).drop s.indexStart, r < h.np := fun r hr =>
    ha.refs r (List.mem_of_mem_take (List.mem_of_mem_drop hr))
  obtain ⟨-, p2, p3, -⟩ := addAll_ok h _ _ (ArrOk.empty h a.order) hr
  have hni : h.nn ≠ i := by omega
  refine ⟨h.nn, ?_, ⟨{ a with specs := a.specs ++ [s], frags := a.frags ++ [h.nn] },
    Arr.addAll h (Arr.empty a.order) ((a.prims.take s.indexEnd).drop s.indexStart),
    by simp [Heap.addFragment, Heap.setBody, Heap.setNode, Heap.newArray, Heap.newNode], ?_, p3, p2, hse, hel⟩, ?_⟩
  · simp [Heap.fragment, Heap.addFragment, Heap.setBody, Heap.setNode, Heap.newArray, Heap.newNode]
  · simp [Heap.addFragment, Heap.setBody, Heap.setNode, Heap.newArray, Heap.newNode, hni]
  · intro k hk hki
    have : k ≠ h.nn := by omega
    simp [Heap.addFragment, Heap.setBody, Heap.setNode, Heap.newArray, Heap.newNode, hki, this]

/-- C21. A fragment requested by element indices, or by byte positions, covers exactly the
requested elements or bytes; requests off the element boundaries or empty ones are refused and
change nothing. -/
theorem C21_fragment_created (h : Heap) (hok : HeapOk h) (i : Nat) (a : Arr)
    (hi : (h.node i).body = .array a) (hin : i < h.nn) (start e n : Nat) :
    ((h.fragIndices i start (some e)).2 = .ok n →
      start < e ∧ ∃ f, (h.fragIndices i start (some e)).1.fragment i n = .ok f
        ∧ IsFrag (h.fragIndices i start (some e)).1 i f start e)
    ∧ ((h.fragBytes i start (some e)).2 = .ok n →
      ∃ s t, a.indexAtByte start = .ok s ∧ a.indexAtByte e = .ok t ∧ start < e ∧ s < t
        ∧ ∃ f, (h.fragBytes i start (some e)).1.fragment i n = .ok f
          ∧ IsFrag (h.fragBytes i start (some e)).1 i f s t)
    ∧ (∀ x, (h.fragIndices i start (some e)).2 = .error x → (h.fragIndices i start (some e)).1 = h)
    ∧ (∀ x, (h.fragBytes i start (some e)).2 = .error x → (h.fragBytes i start (some e)).1 = h) := by
  have ha := hok.arrays i a hi
  have hpos : ∀ idx b, a.byteAtIndex idx = .ok b → idx ≤ a.prims.length ∧ b = ((a.fmt.take idx).map Kind.size).sum := by
    intro idx b hb
    unfold Arr.byteAtIndex at hb
    cases hd : dget a.toByte idx with
    | none => rw [hd] at hb; cases hb
    | some b' =>
      rw [hd] at hb; cases hb
      exact ha.toByte idx _ hd
  have hidx : ∀ idx b, a.indexAtByte b = .ok idx → a.byteAtIndex idx = .ok b := by
    intro idx b hb
    exact (C21_positions h hok i a hi idx b).2.1 hb
  unfold Heap.fragIndices Heap.fragBytes
  simp only [hi]
  refine ⟨?_, ?_, ?_, ?_⟩
  · unfold Arr.indexSpec
    simp only [Option.getD_some]
    by_cases hlt : e > start
    · rw [if_pos hlt]
      cases h1 : a.byteAtIndex start with
      | error x => intro h'; cases h'
      | ok b1 =>
        dsimp only
        cases h2 : a.byteAtIndex e with
        | error x => intro h'; cases h'
        | ok b2 =>
          dsimp only
          intro h'
          obtain ⟨f, f1, f2, -⟩ := addFragment_isFrag h hok i a hi hin ⟨start, e, b1, b2⟩ (Nat.le_of_lt hlt) (hpos e b2 h2).1
          have : (h.addFragment i a ⟨start, e, b1, b2⟩).2 = n := by simpa using h'
          rw [← this]
          exact ⟨hlt, f, f1, f2⟩
    · rw [if_neg hlt]; intro h'; cases h'
  · unfold Arr.byteSpec
    dsimp only
    by_cases hlt : e > start
    · rw [if_pos hlt]
      cases h1 : a.indexAtByte start with
      | error x => intro h'; cases h'
      | ok i1 =>
        dsimp only
        cases h2 : a.indexAtByte e with
        | error x => intro h'; cases h'
        | ok i2 =>
          dsimp only
          intro h'
          have q1 := hpos _ _ (hidx _ _ h1)
          have q2 := hpos _ _ (hidx _ _ h2)
          have hst : i1 < i2 := by
            by_cases hc : i2 ≤ i1
            · have := sum_take_le (a.fmt.map Kind.size) i2 i1 hc
              rw [← List.map_take, ← List.map_take] at this
              omega
            · omega
          obtain ⟨f, f1, f2, -⟩ := addFragment_isFrag h hok i a hi hin ⟨i1, i2, start, e⟩ (Nat.le_of_lt hst) q2.1
          have : (h.addFragment i a ⟨i1, i2, start, e⟩).2 = n := by simpa using h'
          rw [← this]
          exact ⟨i1, i2, rfl, rfl, hlt, hst, f, f1, f2⟩
    · rw [if_neg hlt]; intro h'; cases h'
  · intro x hx
    cases hs : a.indexSpec start (some e) with
    | error y => rfl
    | ok s => rw [hs] at hx; cases hx
  · intro x hx
    cases hs : a.byteSpec start (some e) with
    | error y => rfl
    | ok s => rw [hs] at hx; cases hx

/-- C21. The open end of a request means the end of the array. -/
theorem C21_open_end (h : Heap) (hok : HeapOk h) (i : Nat) (a : Arr) (hi : (h.node i).body = .array a)
    (start : Nat) :
    h.fragIndices i start none = h.fragIndices i start (some a.prims.length)
    ∧ h.fragBytes i start none = h.fragBytes i start (some a.size) := by
  have hl := (C21_positions h hok i a hi 0 0).2.2.2
  constructor
  · simp only [Heap.fragIndices, hi, Arr.indexSpec, Option.getD_none, Option.getD_some]
  · simp only [Heap.fragBytes, hi, Arr.byteSpec, hl]

/-- C21. In an array built from single primitives every index from the first to the end has a
position. -/
theorem C21_all_positions (h : Heap) (o : ByteOrder) (refs : List Nat)
    (hr : ∀ r ∈ refs, r < h.np) (idx : Nat) (hidx : idx ≤ refs.length) :
    ∃ a b, ((h.newArray o refs).1.node (h.newArray o refs).2).body = .array a ∧ a.byteAtIndex idx = .ok b := by
  have key : ∀ (refs : List Nat) (a : Arr), (∀ r ∈ refs, r < h.np) → ArrOk h a →
      (∀ k, k ≤ a.prims.length → (dget a.toByte k).isSome = true) →
      ∀ k, k ≤ a.prims.length + refs.length → (dget (Arr.addAll h a refs).toByte k).isSome = true := by
    intro refs
    induction refs with
    | nil => intro a _ _ hall k hk; exact hall k (by simpa using hk)
    | cons r rest ih =>
      intro a hr ha hall k hk
      have h1 := ha.pushMark (h.prim r).kind [r] (by simp)
        (fun q hq => by rw [List.mem_singleton.mp hq]; exact ⟨hr r List.mem_cons_self, rfl⟩)
      simp only [Arr.addAll]
      refine ih (a.push (h.prim r).kind r).mark (fun q hq => hr q (List.mem_cons_of_mem _ hq)) h1 ?_ k ?_
      · intro k hk
        simp only [Arr.mark, Arr.push, List.length_append, List.length_singleton] at hk ⊢
        rw [dget_dset]
        split
        · rfl
        · exact hall k (by omega)
      · simp only [Arr.mark, Arr.push, List.length_append, List.length_cons] at hk ⊢
        omega
  have := key refs (Arr.empty o) hr (ArrOk.empty h o) (fun k hk => by
    have : k = 0 := by simpa [Arr.empty] using hk
    subst this; rfl) idx (by simpa [Arr.empty] using hidx)
  obtain ⟨b, hb⟩ := Option.isSome_iff_exists.mp this
  exact ⟨_, b, by simp [Heap.newArray, Heap.newNode]; rfl, by simp [Arr.byteAtIndex, hb]⟩

/-- Inside a run of repeated elements (`array_length`) no position is recorded, so a byte
position or a fragment starting there is refused. -/
theorem C21_inside_repeated_fails :
    let h1 := (Heap.empty.newPrim (.int .uint16) (.int 1)).1
    let h2 := (h1.newArray .network []).1
    let h := (h2.add 0 0 (some 3)).1
    h.bytes 0 = .ok [0, 1, 0, 1, 0, 1] ∧ (h.fragIndices 0 1 none).2 = .error .key
    ∧ (h.fragIndices 0 0 none).2 = .ok 0 := by
  decide

example : (sampleHeap.fragBytes 0 1 none).2 = .ok 0
    ∧ ((sampleHeap.fragBytes 0 1 none).1.bytes 2) = .ok [2, 3]
    ∧ (((sampleHeap.fragBytes 0 1 none).1.update 2 [9, 9]).1.bytes 0) = .ok [1, 9, 9] := by decide

example : Reach sampleHeap :=
  .newArray _ _ (.newPrim _ _ (.newPrim _ _ (.newArray _ _ (.newPrim _ _ (.newPrim _ _ .empty
    (by decide)) (by decide)) (by decide)) (by decide)) (by decide)) (by decide)

end Verif.Serial
