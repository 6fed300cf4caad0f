import Verif.Serial.Chain
/-! C23: copies of chains and appending to chains. -/
namespace Verif.Serial

open Verif.Wire

/-! ### The members of a chain -/

/-- Consecutive members are linked and the last one has no successor. -/
def Chained (h : Heap) : List Nat → Prop
  | [] => True
  | [i] => (h.node i).next = none
  | i :: j :: rest => (h.node i).next = some j ∧ Chained h (j :: rest)

theorem walk_iff (h : Heap) (fuel i : Nat) (l : List Nat) :
    h.walk fuel i = some l ↔ l.head? = some i ∧ Chained h l ∧ l.length ≤ fuel := by
  induction fuel generalizing i l with
  | zero =>
    simp only [Heap.walk, Nat.le_zero_eq]
    constructor
    · intro h'; cases h'
    · rintro ⟨h1, -, h3⟩
      rw [List.length_eq_zero_iff] at h3
      subst h3; cases h1
  | succ fuel ih =>
    unfold Heap.walk
    cases hn : (h.node i).next with
    | none =>
      dsimp only
      constructor
      · intro h'; cases h'; exact ⟨rfl, hn, by simp⟩
      · rintro ⟨h1, h2, -⟩
        cases l with
        | nil => cases h1
        | cons x xs =>
          cases h1
          cases xs with
          | nil => rfl
          | cons y ys => simp only [Chained, hn] at h2; cases h2.1
    | some j =>
      dsimp only
      constructor
      · intro h'
        cases hw : h.walk fuel j with
        | none => rw [hw] at h'; cases h'
        | some l' =>
          rw [hw] at h'
          cases h'
          obtain ⟨h1, h2, h3⟩ := (ih j l').mp hw
          refine ⟨rfl, ?_, by simp; omega⟩
          cases l' with
          | nil => cases h1
          | cons x xs => cases h1; exact ⟨hn, h2⟩
      · rintro ⟨h1, h2, h3⟩
        cases l with
        | nil => cases h1
        | cons x xs =>
          cases h1
          cases xs with
          | nil => simp only [Chained, hn] at h2; cases h2
          | cons y ys =>
            obtain ⟨h4, h5⟩ := h2
            rw [hn] at h4
            cases h4
            rw [(ih j (j :: ys)).mpr ⟨rfl, h5, by simpa using h3⟩]
            rfl

theorem chain_iff (h : Heap) (i : Nat) (l : List Nat) :
    h.chain i = .ok l ↔ l.head? = some i ∧ Chained h l ∧ l.length ≤ h.nn := by
  rw [← walk_iff]
  unfold Heap.chain
  cases h.walk h.nn i <;> simp

theorem chained_det (h : Heap) (l l' : List Nat) (h1 : Chained h l) (h2 : Chained h l')
    (he : l.head? = l'.head?) : l = l' := by
  induction l generalizing l' with
  | nil => cases l' with
    | nil => rfl
    | cons y ys => cases he
  | cons x xs ih =>
    cases l' with
    | nil => cases he
    | cons y ys =>
      cases he
      cases xs with
      | nil =>
        cases ys with
        | nil => rfl
        | cons z zs => have e1 := h1; have e2 := h2.1; simp only [Chained] at e1; rw [e1] at e2; cases e2
      | cons z zs =>
        cases ys with
        | nil => have e1 := h1.1; have e2 := h2; simp only [Chained] at e2; rw [e1] at e2; cases e2
        | cons w ws =>
          have e1 := h1.1
          have e2 := h2.1
          rw [e1] at e2
          cases e2
          rw [ih (z :: ws) h1.2 h2.2 rfl]

theorem chained_tail {h : Heap} {x : Nat} {l : List Nat} (hc : Chained h (x :: l)) : Chained h l := by
  cases l with
  | nil => trivial
  | cons y ys => exact hc.2

theorem chained_suffix (h : Heap) (l : List Nat) (hc : Chained h l) (x : Nat) (hx : x ∈ l) :
    ∃ p t, l = p ++ x :: t ∧ Chained h (x :: t) := by
  induction l with
  | nil => cases hx
  | cons y ys ih =>
    by_cases hxy : x = y
    · subst hxy; exact ⟨[], ys, rfl, hc⟩
    · rcases List.mem_cons.mp hx with e | hm
      · exact absurd e hxy
      · obtain ⟨p, t, e1, e2⟩ := ih (chained_tail hc) hm
        exact ⟨y :: p, t, by rw [e1]; rfl, e2⟩

theorem chained_nodup (h : Heap) (l : List Nat) (hc : Chained h l) : l.Nodup := by
  induction l with
  | nil => exact .nil
  | cons x xs ih =>
    refine List.nodup_cons.mpr ⟨fun hm => ?_, ih (chained_tail hc)⟩
    obtain ⟨p, t, e1, e2⟩ := chained_suffix h xs (chained_tail hc) x hm
    have := chained_det h (x :: xs) (x :: t) hc e2 rfl
    have hl := congrArg List.length this
    rw [e1] at hl
    simp at hl
    omega

theorem chained_frame (h h' : Heap) (l : List Nat) (hf : ∀ k ∈ l, (h'.node k).next = (h.node k).next)
    (hc : Chained h l) : Chained h' l := by
  induction l with
  | nil => trivial
  | cons x xs ih =>
    have h1 := hf x List.mem_cons_self
    have h2 := ih (fun k hk => hf k (List.mem_cons_of_mem _ hk)) (chained_tail hc)
    cases xs with
    | nil => simp only [Chained] at hc ⊢; rw [h1, hc]
    | cons y ys => exact ⟨by rw [h1]; exact hc.1, h2⟩

theorem chain_lt (h : Heap) (hk : HeapOk h) (i : Nat) (hi : i < h.nn) (l : List Nat) (hc : h.chain i = .ok l) :
    l ≠ [] ∧ ∀ k ∈ l, k < h.nn := walk_lt h hk _ i hi l (chain_walk hc)

theorem nodup_length_le (l : List Nat) (hn : l.Nodup) (n : Nat) (hl : ∀ k ∈ l, k < n) : l.length ≤ n := by
  have : l ⊆ List.range n := fun k hk => List.mem_range.mpr (hl k hk)
  have := (hn.subperm this).length_le
  simpa using this

/-- C22. Writing a chain gives as many bytes as its reported length and result; reading them,
followed by anything, into a chain of the same layout (with primitives of its own, in the same
process or another) consumes exactly those bytes, restores every value of every member and
touches nothing else. -/
theorem C22_round_trip (h0 h : Heap) (h0k : HeapOk h0) (hk : HeapOk h) (i j : Nat) (l l' : List Nat)
    (hi : h0.chain i = .ok l) (hj : h.chain j = .ok l')
    (hs : ∀ i ∈ l, Sound h0 i) (hsh : List.Forall₂ (fun i j => SameShape h j (view h0 i)) l l')
    (hp : (l'.flatMap (primsOf h)).Nodup) :
    ∃ bs, h0.toStream i = .ok (bs, bs.length) ∧ h0.length i = .ok bs.length
      ∧ ∀ rest, ∃ h', h.fromStream j (bs ++ rest) = (h', .ok (bs.length, rest))
        ∧ l'.map (view h') = l.map (view h0)
        ∧ (∀ q, q ∉ l'.flatMap (primsOf h) → h'.prim q = h.prim q)
        ∧ (∀ k, k ∉ l' → h'.node k = h.node k) := by
  obtain ⟨bs, w1, w2, w3⟩ := readAll_spec h0 h0k l l' h hk hs hsh
    (chained_nodup h l' ((chain_iff h j l').mp hj).2.1) hp
  refine ⟨bs, by simp only [Heap.toStream, hi, w1], by simp [Heap.length, hi, Except.map, w2], fun rest => ?_⟩
  obtain ⟨h', r1, r2, -, r4, r5, -⟩ := w3 rest
  exact ⟨h', by simp only [Heap.fromStream, hj, r1], r2, r4, r5⟩

/-! ### Copies -/

/-- `h'` extends `h`: the old objects are unchanged. -/
structure Ext (h h' : Heap) : Prop where
  node : ∀ k, k < h.nn → h'.node k = h.node k
  prim : ∀ q, q < h.np → h'.prim q = h.prim q
  np : h.np ≤ h'.np
  nn : h.nn ≤ h'.nn

theorem Ext.trans {a b c : Heap} (h1 : Ext a b) (h2 : Ext b c) : Ext a c :=
  ⟨fun k hk => by rw [h2.node k (Nat.lt_of_lt_of_le hk h1.nn), h1.node k hk],
   fun q hq => by rw [h2.prim q (Nat.lt_of_lt_of_le hq h1.np), h1.prim q hq],
   Nat.le_trans h1.np h2.np, Nat.le_trans h1.nn h2.nn⟩

/-- Node `k` looks the same in both heaps except for its fragments. -/
def SameNode (h h' : Heap) (k : Nat) : Prop :=
  view h' k = view h k ∧ h'.bytes k = h.bytes k ∧ primsOf h' k = primsOf h k
  ∧ (h'.node k).body.size = (h.node k).body.size ∧ (h'.node k).next = (h.node k).next

theorem ext_same {h h' : Heap} (hk : HeapOk h) (he : Ext h h') (k : Nat) (hlt : k < h.nn) : SameNode h h' k := by
  have hn := he.node k hlt
  have hp : ∀ a, (h.node k).body = .array a → ∀ r ∈ a.prims, h'.prim r = h.prim r :=
    fun a ha r hr => he.prim r ((hk.arrays k a ha).refs r hr)
  refine ⟨?_, ?_, by simp only [primsOf, hn], by rw [hn], by rw [hn]⟩
  · unfold view
    rw [hn]
    cases hb : (h.node k).body with
    | fixed d => rfl
    | prefixed p => rfl
    | array a =>
      simp only [cells]
      congr 1
      exact List.map_congr_left (fun r hr => by rw [hp a hb r hr])
  · unfold Heap.bytes
    rw [hn]
    cases hb : (h.node k).body with
    | fixed d => rfl
    | prefixed p => rfl
    | array a =>
      dsimp only
      have : a.prims.map (fun r => (h'.prim r).val) = a.prims.map (fun r => (h.prim r).val) :=
        List.map_congr_left (fun r hr => by rw [hp a hb r hr])
      rw [this]

theorem addFragments_spec (specs : List FragSpec) (h : Heap) (i : Nat) (hi : i < h.nn) :
    (h.addFragments i specs).prim = h.prim ∧ (h.addFragments i specs).np = h.np
    ∧ h.nn ≤ (h.addFragments i specs).nn
    ∧ (∀ k, k < h.nn → k ≠ i → (h.addFragments i specs).node k = h.node k)
    ∧ SameNode h (h.addFragments i specs) i := by
  induction specs generalizing h with
  | nil => exact ⟨rfl, rfl, Nat.le_refl _, fun _ _ _ => rfl, rfl, rfl, rfl, rfl, rfl⟩
  | cons s rest ih =>
    unfold Heap.addFragments
    cases hb : (h.node i).body with
    | fixed d => exact ⟨rfl, rfl, Nat.le_refl _, fun _ _ _ => rfl, rfl, rfl, rfl, rfl, rfl⟩
    | prefixed p => exact ⟨rfl, rfl, Nat.le_refl _, fun _ _ _ => rfl, rfl, rfl, rfl, rfl, rfl⟩
    | array a =>
      dsimp only
      have hnn : (h.addFragment i a s).1.nn = h.nn + 1 := rfl
      obtain ⟨i1, i2, i3, i4, i5⟩ := ih (h.addFragment i a s).1 (by omega)
      have hself : (h.addFragment i a s).1.node i
          = ⟨.array { a with specs := a.specs ++ [s], frags := a.frags ++ [h.nn] }, (h.node i).next⟩ := by
        have : i ≠ h.nn := by omega
        simp [Heap.addFragment, Heap.setBody, Heap.setNode, Heap.newArray, Heap.newNode, this]
      have hprim : (h.addFragment i a s).1.prim = h.prim := rfl
      refine ⟨i1, i2, by omega, fun k hk hki => ?_, ?_⟩
      · rw [i4 k (by omega) hki]
        have : k ≠ h.nn := by omega
        simp [Heap.addFragment, Heap.setBody, Heap.setNode, Heap.newArray, Heap.newNode, hki, this]
      · obtain ⟨j1, j2, j3, j4, j5⟩ := i5
        refine ⟨j1.trans ?_, j2.trans ?_, j3.trans ?_, j4.trans ?_, j5.trans ?_⟩
        · simp [view, hself, hb, cells, hprim]
        · simp [Heap.bytes, hself, hb, hprim]
        · simp [primsOf, hself, hb]
        · simp [hself, hb, Body.size]
        · rw [hself]

/-- One copied member. -/
theorem copyOne_spec (h : Heap) (hk : HeapOk h) (i : Nat) :
    Ext h (h.copyOne i).1 ∧ HeapOk (h.copyOne i).1
    ∧ h.nn ≤ (h.copyOne i).2 ∧ (h.copyOne i).2 < (h.copyOne i).1.nn
    ∧ view (h.copyOne i).1 (h.copyOne i).2 = view h i
    ∧ (h.copyOne i).1.bytes (h.copyOne i).2 = h.bytes i
    ∧ (∀ q ∈ primsOf (h.copyOne i).1 (h.copyOne i).2, h.np ≤ q ∧ q < (h.copyOne i).1.np)
    ∧ (primsOf (h.copyOne i).1 (h.copyOne i).2).Nodup
    ∧ (Sound h i → Sound (h.copyOne i).1 (h.copyOne i).2
        ∧ ((h.copyOne i).1.node (h.copyOne i).2).body.size = (h.node i).body.size)
    ∧ ((h.copyOne i).1.node (h.copyOne i).2).next = none := by
  obtain ⟨g1, g2, g3⟩ := good_copyOne h hk i
  suffices hs : Ext h (h.copyOne i).1 ∧ view (h.copyOne i).1 (h.copyOne i).2 = view h i
    ∧ (h.copyOne i).1.bytes (h.copyOne i).2 = h.bytes i
    ∧ (∀ q ∈ primsOf (h.copyOne i).1 (h.copyOne i).2, h.np ≤ q ∧ q < (h.copyOne i).1.np)
    ∧ (primsOf (h.copyOne i).1 (h.copyOne i).2).Nodup
    ∧ (Sound h i → Sound (h.copyOne i).1 (h.copyOne i).2
        ∧ ((h.copyOne i).1.node (h.copyOne i).2).body.size = (h.node i).body.size)
    ∧ ((h.copyOne i).1.node (h.copyOne i).2).next = none by
    exact ⟨hs.1, g1.1, g2, g3, hs.2⟩
  clear g1 g2 g3
  unfold Heap.copyOne
  cases hb : (h.node i).body with
  | fixed d =>
    refine ⟨⟨fun k hk => newNode_ne h _ k (by omega), fun _ _ => rfl, Nat.le_refl _,
      by simp [Heap.newNode]⟩, ?_, ?_, ?_, ?_, ?_, ?_⟩
    · simp [view, Heap.newNode, hb]
    · simp [Heap.bytes, Heap.newNode, hb]
    · simp [primsOf, Heap.newNode]
    · simp [primsOf, Heap.newNode]
    · intro _; simp [Sound, Heap.newNode]
    · simp [Heap.newNode]
  | prefixed p =>
    refine ⟨⟨fun k hk => newNode_ne h _ k (by omega), fun _ _ => rfl, Nat.le_refl _,
      by simp [Heap.newNode]⟩, ?_, ?_, ?_, ?_, ?_, ?_⟩
    · simp [view, Heap.newNode, hb]
    · simp [Heap.bytes, Heap.newNode, hb]
    · simp [primsOf, Heap.newNode]
    · simp [primsOf, Heap.newNode]
    · intro hs
      simp only [Sound, hb] at hs
      have hpn : p.pfx.toNat = p.data.length := by rw [hs.pfx]; simp
      simp only [Sound, Heap.newNode, if_true, Body.size]
      exact ⟨⟨hs.unsigned, hs.pfx, hs.fits, by rw [hpn]⟩, by rw [hpn, hs.size]⟩
    · simp [Heap.newNode]
  | array a =>
    have ha := hk.arrays i a hb
    obtain ⟨i1, i2, i3, i4, i5, i6, i7, i8⟩ := copyPrims_spec a.prims h hk ha.refs
    dsimp only
    generalize hc : h.copyPrims a.prims = c at *
    obtain ⟨h1, refs⟩ := c
    dsimp only at *
    obtain ⟨p1, p2, p3, p4, p5⟩ := addAll_ok h1 refs (Arr.empty a.order) (ArrOk.empty h1 a.order)
      (fun r hr => (i4 r hr).2)
    generalize hA : Arr.addAll h1 (Arr.empty a.order) refs = A at *
    have hA' : h1.newArray a.order refs = (h1.newNode (.array A)) := by rw [← hA]; rfl
    rw [hA']
    obtain ⟨q1, q2, q3, q4, q5⟩ := addFragments_spec a.specs (h1.newNode (.array A)).1 h1.nn
      (by simp [Heap.newNode])
    have hjj : (h1.newNode (.array A)).2 = h1.nn := rfl
    rw [hjj]
    generalize hH : ((h1.newNode (.array A)).1.addFragments h1.nn a.specs) = H at *
    have hn1 : (h1.newNode (.array A)).1.nn = h1.nn + 1 := rfl
    have hp1 : (h1.newNode (.array A)).1.prim = h1.prim := rfl
    have hnp1 : (h1.newNode (.array A)).1.np = h1.np := rfl
    have hself := newNode_self h1 (.array A)
    have hnp : h.np ≤ h1.np := i1.2.np
    have hpr : A.prims = refs := by rw [p2]; rfl
    have hcells : cells h1 A = cells h a := by
      simp only [cells, hpr]
      have := congrArg (List.map (fun c : PrimCell => (c.kind, c.val))) i3
      rw [List.map_map, List.map_map] at this
      exact this
    have hfmt : A.fmt = a.fmt := by
      rw [← fmt_cells h1 A p1, hcells, fmt_cells h a ha]
    obtain ⟨s1, s2, s3, s4, s5⟩ := q5
    have hbytes1 : (h1.newNode (.array A)).1.bytes h1.nn = pack a.order 0 (cells h a) := by
      have hle : Le h1 (h1.newNode (.array A)).1 := ⟨Nat.le_refl _, by simp [Heap.newNode], fun _ _ => rfl⟩
      rw [bytes_array _ h1.nn A (p1.mono hle) (by rw [hself])]
      rw [p3, ← hcells]; rfl
    refine ⟨⟨fun k hk' => ?_, fun q hq => ?_, by omega, by omega⟩, ?_, ?_, ?_, ?_, ?_, ?_⟩
    · rw [q4 k (by omega) (by omega), newNode_ne h1 _ k (by omega), i7]
    · rw [q1, hp1, i6 q hq]
    · rw [s1]
      simp only [view, hself, hb]
      rw [p3]
      exact congrArg _ hcells
    · rw [s2, hbytes1, bytes_array h i a ha hb]
    · rw [s3]
      intro q hq
      simp only [primsOf, hself, hpr] at hq
      have := i4 q hq
      exact ⟨this.1, by omega⟩
    · rw [s3]
      simp only [primsOf, hself, hpr]
      exact i5
    · intro hs
      simp only [Sound, hb] at hs
      constructor
      · have : view H h1.nn = .array a.order (cells h a) := by
          rw [s1]
          simp only [view, hself]
          rw [p3]
          exact congrArg _ hcells
        unfold Sound
        cases hbd : (H.node h1.nn).body with
        | array x =>
          simp only [view, hbd, View.array.injEq] at this
          show x.order ≠ .native
          rw [this.1]; exact hs
        | fixed d => trivial
        | prefixed p => simp [view, hbd] at this
      · rw [s4, hself]
        simp only [Body.size, p1.size, ha.size, hfmt]
    · rw [s5, hself]

/-- Copying the members of a chain. -/
theorem copyAll_spec (l : List Nat) (h : Heap) (hk : HeapOk h) (hl : ∀ i ∈ l, i < h.nn) :
    ∃ l2, (h.copyAll l).2 = l2.head? ∧ l2.length = l.length ∧ Chained (h.copyAll l).1 l2
      ∧ Ext h (h.copyAll l).1 ∧ HeapOk (h.copyAll l).1
      ∧ (∀ k ∈ l2, h.nn ≤ k ∧ k < (h.copyAll l).1.nn)
      ∧ (∀ k ∈ l2, ∀ q ∈ primsOf (h.copyAll l).1 k, h.np ≤ q ∧ q < (h.copyAll l).1.np)
      ∧ (l2.flatMap (primsOf (h.copyAll l).1)).Nodup
      ∧ l2.map (view (h.copyAll l).1) = l.map (view h)
      ∧ l2.map (h.copyAll l).1.bytes = l.map h.bytes
      ∧ ((∀ i ∈ l, Sound h i) → (∀ k ∈ l2, Sound (h.copyAll l).1 k)
          ∧ l2.map (fun k => ((h.copyAll l).1.node k).body.size) = l.map (fun i => (h.node i).body.size))
      ∧ l.length + h.nn ≤ (h.copyAll l).1.nn := by
  induction l generalizing h with
  | nil =>
    refine ⟨[], rfl, rfl, trivial, ⟨fun _ _ => rfl, fun _ _ => rfl, Nat.le_refl _, Nat.le_refl _⟩, hk,
      fun k h' => (by cases h'), fun k h' => (by cases h'), .nil, rfl, rfl,
      fun _ => ⟨fun k h' => (by cases h'), rfl⟩, by simp [Heap.copyAll]⟩
  | cons i rest ih =>
    obtain ⟨e1, k1, f1, f2, v1, b1, pr1, nd1, sd1, nx1⟩ := copyOne_spec h hk i
    have hrest : ∀ x ∈ rest, x < h.nn := fun x hx => hl x (List.mem_cons_of_mem _ hx)
    obtain ⟨l2, c1, c2, c3, c4, c5, c6, c7, c8, c9, c10, c11, c12⟩ :=
      ih (h.copyOne i).1 k1 (fun x hx => Nat.lt_of_lt_of_le (hrest x hx) e1.nn)
    have e : h.copyAll (i :: rest) =
        (((h.copyOne i).1.copyAll rest).1.setNode (h.copyOne i).2
          ⟨(((h.copyOne i).1.copyAll rest).1.node (h.copyOne i).2).body, ((h.copyOne i).1.copyAll rest).2⟩,
          some (h.copyOne i).2) := rfl
    rw [e]
    generalize hone : h.copyOne i = one at *
    obtain ⟨h1, j⟩ := one
    generalize hall : h1.copyAll rest = all at *
    obtain ⟨h2, o⟩ := all
    dsimp only at *
    have hj2 := ext_same k1 c4 j f2
    obtain ⟨t1, t2, t3, t4, t5⟩ := hj2
    have hjn : h2.node j = h1.node j := c4.node j f2
    -- the final link changes no content
    have hsame : ∀ k, SameNode h2 (h2.setNode j ⟨(h2.node j).body, o⟩) k ∨ k = j := by
      intro k
      by_cases hkj : k = j
      · exact Or.inr hkj
      · left
        refine ⟨?_, ?_, ?_, ?_, ?_⟩ <;> simp [view, Heap.bytes, primsOf, Heap.setNode, hkj, cells]
    have hview : ∀ k, view (h2.setNode j ⟨(h2.node j).body, o⟩) k = view h2 k := by
      intro k
      by_cases hkj : k = j
      · subst hkj; simp [view, Heap.setNode, cells]
      · simp [view, Heap.setNode, hkj, cells]
    have hbytes : ∀ k, (h2.setNode j ⟨(h2.node j).body, o⟩).bytes k = h2.bytes k := by
      intro k
      by_cases hkj : k = j
      · subst hkj; simp [Heap.bytes, Heap.setNode]
      · simp [Heap.bytes, Heap.setNode, hkj]
    have hprims : ∀ k, primsOf (h2.setNode j ⟨(h2.node j).body, o⟩) k = primsOf h2 k := by
      intro k
      by_cases hkj : k = j
      · subst hkj; simp [primsOf, Heap.setNode]
      · simp [primsOf, Heap.setNode, hkj]
    have hbody : ∀ k, ((h2.setNode j ⟨(h2.node j).body, o⟩).node k).body = (h2.node k).body := by
      intro k
      by_cases hkj : k = j
      · subst hkj; simp [Heap.setNode]
      · simp [Heap.setNode, hkj]
    have hjl : j ∉ l2 := fun hm => by have := (c6 j hm).1; omega
    have hlinks : ∀ j', o = some j' → j' < h2.nn := by
      intro j' hj'
      rw [c1] at hj'
      exact (c6 j' (List.mem_of_mem_head? hj')).2
    have hok := (good_setNode h2 c5 j ⟨(h2.node j).body, o⟩ (Nat.lt_of_lt_of_le f2 c4.nn)
      (fun a ha => c5.arrays j a ha) hlinks).1
    have hch : Chained (h2.setNode j ⟨(h2.node j).body, o⟩) l2 := by
      apply chained_frame h2 _ l2 _ c3
      intro k hk'
      have : k ≠ j := fun e => hjl (e ▸ hk')
      simp [Heap.setNode, this]
    refine ⟨j :: l2, rfl, by simp [c2], ?_, ?_, hok, ?_, ?_, ?_, ?_, ?_, ?_, ?_⟩
    · cases l2 with
      | nil =>
        simp only [Chained, Heap.setNode, if_true]
        rw [c1]; rfl
      | cons y ys =>
        refine ⟨?_, hch⟩
        simp only [Heap.setNode, if_true]
        rw [c1]; rfl
    · have hx := e1.trans c4
      refine ⟨fun k hk' => ?_, hx.prim, hx.np, hx.nn⟩
      have : k ≠ j := by omega
      simp only [Heap.setNode, if_neg this]
      exact hx.node k hk'
    · intro k hk'
      rcases List.mem_cons.mp hk' with rfl | hm
      · exact ⟨f1, Nat.lt_of_lt_of_le f2 c4.nn⟩
      · have := c6 k hm
        exact ⟨Nat.le_trans e1.nn this.1, this.2⟩
    · intro k hk' q hq
      rw [hprims] at hq
      rcases List.mem_cons.mp hk' with rfl | hm
      · rw [t3] at hq
        have := pr1 q hq
        exact ⟨this.1, Nat.lt_of_lt_of_le this.2 c4.np⟩
      · have := c7 k hm q hq
        exact ⟨Nat.le_trans e1.np this.1, this.2⟩
    · rw [flatMap_congr' (j :: l2) (fun k _ => hprims k), List.flatMap_cons]
      refine List.nodup_append.mpr ⟨by rw [t3]; exact nd1, c8, fun x hx y hy exy => ?_⟩
      subst exy
      rw [t3] at hx
      have h1' := (pr1 x hx).2
      obtain ⟨k, hk1, hk2⟩ := List.mem_flatMap.mp hy
      have := (c7 k hk1 x hk2).1
      omega
    · rw [List.map_cons, List.map_cons, hview, t1, v1]
      congr 1
      rw [List.map_congr_left (fun k _ => hview k), c9]
      exact List.map_congr_left (fun k hk' => (ext_same hk e1 k (hrest k hk')).1)
    · rw [List.map_cons, List.map_cons, hbytes, t2, b1]
      congr 1
      rw [List.map_congr_left (fun k _ => hbytes k), c10]
      exact List.map_congr_left (fun k hk' => (ext_same hk e1 k (hrest k hk')).2.1)
    · intro hs
      have hsr : ∀ x ∈ rest, Sound h1 x := by
        intro x hx
        have := hs x (List.mem_cons_of_mem _ hx)
        unfold Sound at this ⊢
        rw [e1.node x (hrest x hx)]; exact this
      obtain ⟨d1, d2⟩ := c11 hsr
      obtain ⟨d3, d4⟩ := sd1 (hs i List.mem_cons_self)
      refine ⟨fun k hk' => ?_, ?_⟩
      · unfold Sound
        rw [hbody]
        rcases List.mem_cons.mp hk' with rfl | hm
        · rw [hjn]; exact d3
        · exact d1 k hm
      · rw [List.map_congr_left (fun k _ => congrArg Body.size (hbody k)), List.map_cons, List.map_cons,
          hjn, d4]
        congr 1
        rw [d2]
        exact List.map_congr_left (fun k hk' => by rw [e1.node k (hrest k hk')])
    · show (i :: rest).length + h.nn ≤ h2.nn
      simp only [List.length_cons]
      omega

theorem writeAll_congr (h h' : Heap) (l l' : List Nat) (hb : l'.map h'.bytes = l.map h.bytes)
    (hs : l'.map (fun k => (h'.node k).body.size) = l.map (fun k => (h.node k).body.size)) :
    h'.writeAll l' = h.writeAll l := by
  induction l generalizing l' with
  | nil =>
    cases l' with
    | nil => rfl
    | cons y ys => cases hb
  | cons x xs ih =>
    cases l' with
    | nil => cases hb
    | cons y ys =>
      rw [List.map_cons, List.map_cons] at hb hs
      injection hb with hb1 hb2
      injection hs with hs1 hs2
      simp only [Heap.writeAll, hb1, hs1, ih ys hb2 hs2]

theorem copy_spec (h : Heap) (hk : HeapOk h) (i : Nat) (hi : i < h.nn) (l : List Nat)
    (hc : h.chain i = .ok l) :
    ∃ h' j l2, h.copy i = (h', .ok j) ∧ h'.chain j = .ok l2 ∧ h'.chain i = .ok l
      ∧ l2.map (view h') = l.map (view h) ∧ l2.map h'.bytes = l.map h.bytes
      ∧ Ext h h' ∧ HeapOk h' ∧ (∀ k ∈ l2, h.nn ≤ k ∧ k < h'.nn)
      ∧ (∀ k ∈ l2, ∀ q ∈ primsOf h' k, h.np ≤ q ∧ q < h'.np) ∧ (l2.flatMap (primsOf h')).Nodup
      ∧ ((∀ k ∈ l, Sound h k) → (∀ k ∈ l2, Sound h' k)
          ∧ l2.map (fun k => (h'.node k).body.size) = l.map (fun i => (h.node i).body.size)) := by
  obtain ⟨hne, hlt⟩ := chain_lt h hk i hi l hc
  obtain ⟨l2, c1, c2, c3, c4, c5, c6, c7, c8, c9, c10, c11, c12⟩ := copyAll_spec l h hk hlt
  obtain ⟨w1, w2, w3⟩ := (chain_iff h i l).mp hc
  unfold Heap.copy
  rw [hc]
  dsimp only
  generalize hca : h.copyAll l = ca at *
  obtain ⟨h', o⟩ := ca
  dsimp only at *
  cases l2 with
  | nil =>
    have : l = [] := List.length_eq_zero_iff.mp c2.symm
    exact absurd this hne
  | cons j l2 =>
    rw [List.head?_cons] at c1
    subst c1
    refine ⟨h', j, j :: l2, rfl, ?_, ?_, c9, c10, c4, c5, c6, c7, c8, c11⟩
    · exact (chain_iff h' j _).mpr ⟨rfl, c3, by omega⟩
    · refine (chain_iff h' i l).mpr ⟨w1, chained_frame h h' l (fun k hk' => by rw [c4.node k (hlt k hk')]) w2, ?_⟩
      have := c4.nn; omega

/-- C23. Copying a chain gives a chain of the same length whose members have the same contents
and bytes, made of new objects only; the original and everything else is unchanged. -/
theorem C23_copy (h : Heap) (hk : HeapOk h) (i : Nat) (hi : i < h.nn) (l : List Nat)
    (hc : h.chain i = .ok l) (hs : ∀ k ∈ l, Sound h k) :
    ∃ h' j l2, h.copy i = (h', .ok j) ∧ h'.chain j = .ok l2 ∧ h'.chain i = .ok l
      ∧ l2.map (view h') = l.map (view h)
      ∧ h'.toStream j = h.toStream i ∧ h'.toStream i = h.toStream i ∧ h'.length j = h.length i
      ∧ (∀ k, k < h.nn → h'.node k = h.node k) ∧ (∀ q, q < h.np → h'.prim q = h.prim q)
      ∧ (∀ k ∈ l2, h.nn ≤ k) ∧ (∀ k ∈ l2, ∀ q ∈ primsOf h' k, h.np ≤ q) := by
  obtain ⟨h', j, l2, e1, e2, e3, e4, e5, e6, e7, e8, e9, e10, e11⟩ := copy_spec h hk i hi l hc
  obtain ⟨-, hlt⟩ := chain_lt h hk i hi l hc
  refine ⟨h', j, l2, e1, e2, e3, e4, ?_, ?_, ?_, e6.node, e6.prim, fun k hk => (e8 k hk).1,
    fun k hk q hq => (e9 k hk q hq).1⟩
  · simp only [Heap.toStream, e2, hc]
    exact writeAll_congr h h' l l2 e5 (e11 hs).2
  · simp only [Heap.toStream, e3, hc]
    apply writeAll_congr h h' l l
    · exact List.map_congr_left (fun k hk' => (ext_same hk e6 k (hlt k hk')).2.1)
    · exact List.map_congr_left (fun k hk' => (ext_same hk e6 k (hlt k hk')).2.2.2.1)
  · simp only [Heap.length, e2, hc, Except.map, (e11 hs).2]

theorem forall2_same (h h' : Heap) (hk' : HeapOk h') (l l2 : List Nat)
    (hv : l2.map (view h') = l.map (view h)) (hs : ∀ k ∈ l2, Sound h' k) :
    List.Forall₂ (fun i j => SameShape h' j (view h i)) l l2 := by
  induction l generalizing l2 with
  | nil =>
    cases l2 with
    | nil => exact .nil
    | cons y ys => cases hv
  | cons x xs ih =>
    cases l2 with
    | nil => cases hv
    | cons y ys =>
      rw [List.map_cons, List.map_cons] at hv
      injection hv with h1 h2
      refine .cons ?_ (ih ys h2 (fun k hk => hs k (List.mem_cons_of_mem _ hk)))
      rw [← h1]
      have hsy := hs y List.mem_cons_self
      unfold Sound at hsy
      unfold SameShape view
      cases hb : (h'.node y).body with
      | array a => exact ⟨rfl, (fmt_cells h' a (hk'.arrays y a hb)).symm⟩
      | fixed d => rfl
      | prefixed p => rw [hb] at hsy; exact ⟨rfl, rfl, hsy.unsigned⟩

/-- C22. Every chain can be read into a copy of it, whatever values the primitives of the copy
were given in between. -/
theorem C22_into_copy (h : Heap) (hk : HeapOk h) (i : Nat) (hi : i < h.nn) (l : List Nat)
    (hc : h.chain i = .ok l) (hs : ∀ k ∈ l, Sound h k) :
    ∃ h1 j bs, h.copy i = (h1, .ok j) ∧ h.toStream i = .ok (bs, bs.length)
      ∧ ∀ rest, ∃ h', h1.fromStream j (bs ++ rest) = (h', .ok (bs.length, rest)) := by
  obtain ⟨h', j, l2, e1, e2, e3, e4, e5, e6, e7, e8, e9, e10, e11⟩ := copy_spec h hk i hi l hc
  obtain ⟨bs, r1, r2, r3⟩ := C22_round_trip h h' hk e7 i j l l2 hc e2 hs (forall2_same h h' e7 l l2 e4 (e11 hs).1) e10
  refine ⟨h', j, bs, e1, r1, fun rest => ?_⟩
  obtain ⟨h'', x1, -⟩ := r3 rest
  exact ⟨h'', x1⟩

end Verif.Serial
