import Verif.Protocol.Model
/-! The effect of the building steps on the chain of a protocol. -/
namespace Verif.Protocol

open Verif.Wire Verif.Serial Verif.Registry

/-- The layout of one serializable. -/
inductive Shape where
  | array (o : ByteOrder) (fmt : List Kind)
  | fixed (n : Nat)
  | prefixed (k : IntKind) (o : ByteOrder)
  deriving DecidableEq

def shape (h : Heap) (i : Nat) : Shape :=
  match (h.node i).body with
  | .array a => .array a.order a.fmt
  | .fixed d => .fixed d.length
  | .prefixed p => .prefixed p.kind p.order

/-- The primitives along a chain. -/
def slots (h : Heap) (l : List Nat) : List Nat := l.flatMap (primsOf h)

/-- Adding elements at the end of a chain of shapes. -/
def addShape (o : ByteOrder) (ks : List Kind) : List Shape → List Shape
  | [] => [.array o ks]
  | [.array o' fmt] => [.array o' (fmt ++ ks)]
  | [s] => [s, .array o ks]
  | s :: t => s :: addShape o ks t

theorem addShape_append (o : ByteOrder) (ks : List Kind) (ss : List Shape) (s : Shape) :
    addShape o ks (ss ++ [s]) = ss ++ addShape o ks [s] := by
  induction ss with
  | nil => rfl
  | cons x xs ih =>
    cases xs with
    | nil => cases x <;> rfl
    | cons y ys =>
      rw [List.cons_append, List.cons_append]
      rw [List.cons_append] at ih
      simp only [addShape]
      rw [ih]; rfl

/-- Chains as a front and a last member. -/
theorem split_last (l : List Nat) (e : Nat) (h : l.getLast? = some e) : ∃ f, l = f ++ [e] := by
  rcases List.eq_nil_or_concat l with rfl | ⟨f, x, rfl⟩
  · cases h
  · simp only [List.concat_eq_append, List.getLast?_append, List.getLast?_singleton, Option.some_or,
      Option.some.injEq] at h
    subst h
    exact ⟨f, by simp⟩

/-- What adding a primitive to a chain does. -/
structure Added (h h' : Heap) (i r : Nat) (n : Nat) (o : ByteOrder) (l l' : List Nat) (rs : List Nat) : Prop where
  good : Good h h'
  chain : h'.chain i = .ok l'
  pre : l <+: l'
  slots : slots h' l' = slots h l ++ r :: rs
  len : rs.length = n
  fresh : ∀ q ∈ rs, h.np ≤ q ∧ q < h'.np
  nodup : rs.Nodup
  vals : ∀ q ∈ rs, h'.prim q = h.prim r
  shapes : l'.map (shape h') = addShape o (List.replicate (n + 1) (h.prim r).kind) (l.map (shape h))
  prims : ∀ q, q < h.np → h'.prim q = h.prim q
  sound : (∀ k ∈ l, Sound h k) → o ≠ .native → ∀ k ∈ l', Sound h' k
  old : ∀ k ∈ l, (∀ a, (h.node k).body ≠ .array a) → (h'.node k).body = (h.node k).body
  nodes : ∀ k ∈ l', k ∈ l ∨ h.nn ≤ k
  frame : ∀ k, k < h.nn → k ∉ l → h'.node k = h.node k

theorem pushMany_added (h : Heap) (hok : HeapOk h) (i : Nat) (l f : List Nat) (e : Nat) (hi : i < h.nn)
    (hc : h.chain i = .ok l) (hl : l = f ++ [e]) (a : Arr) (hb : (h.node e).body = .array a) (r : Nat)
    (hr : r < h.np) (len : Option Nat) (o : ByteOrder) :
    ∃ rs, Added h (h.pushMany e a r len).1 i r (len.getD 1 - 1) o l l rs := by
  obtain ⟨w1, w2, w3⟩ := (chain_iff h i l).mp hc
  obtain ⟨-, hlt⟩ := chain_lt h hok i hi l hc
  have hel : e ∈ l := by rw [hl]; simp
  have hg := good_pushMany h hok e a hb (hlt e hel) r hr len
  obtain ⟨i1, i2, i3, i4, i5, i6, i7, i8⟩ := copyPrims_spec (List.replicate (len.getD 1 - 1) r) h hok
    (fun q hq => by rw [List.eq_of_mem_replicate hq]; exact hr)
  unfold Heap.pushMany at hg ⊢
  dsimp only at hg ⊢
  generalize h.copyPrims (List.replicate (len.getD 1 - 1) r) = c at *
  obtain ⟨h1, rs⟩ := c
  dsimp only at *
  rw [foldl_push] at hg ⊢
  rw [List.length_replicate] at i2
  refine ⟨rs, ?_⟩
  -- the new heap
  generalize ha' : (Arr.mark { a with prims := a.prims ++ r :: rs, fmt := a.fmt ++ List.replicate (r :: rs).length (h.prim r).kind, size := a.size + (r :: rs).length * (h.prim r).kind.size }) = a' at *
  have ap : a'.prims = a.prims ++ r :: rs := by rw [← ha']; rfl
  have af : a'.fmt = a.fmt ++ List.replicate (rs.length + 1) (h.prim r).kind := by rw [← ha']; rfl
  have ao : a'.order = a.order := by rw [← ha']; rfl
  have hne : ∀ k, k ≠ e → (h1.setBody e (.array a')).node k = h.node k := by
    intro k hk; simp [Heap.setBody, Heap.setNode, hk, i7]
  have hse : ((h1.setBody e (.array a')).node e).body = .array a' := by
    simp [Heap.setBody, Heap.setNode]
  have hnx : ∀ k, ((h1.setBody e (.array a')).node k).next = (h.node k).next := by
    intro k
    by_cases hk : k = e
    · subst hk; simp [Heap.setBody, Heap.setNode, i7]
    · rw [hne k hk]
  have hnd := chained_nodup h l w2
  have hef : e ∉ f := by
    rw [hl] at hnd
    intro hm
    exact (List.nodup_append.mp hnd).2.2 e hm e (by simp) rfl
  have hf : ∀ k ∈ f, k ≠ e := fun k hk hke => hef (hke ▸ hk)
  refine ⟨hg, ?_, List.prefix_refl _, ?_, i2, i4, i5, ?_, ?_, i6, ?_, ?_, fun k hk => .inl hk,
    fun k _ hk => hne k (fun hke => hk (hke ▸ hel))⟩
  · exact (chain_iff _ i l).mpr ⟨w1, chained_frame h _ l (fun k _ => hnx k) w2, by
      show _ ≤ h1.nn
      rw [i8]; exact w3⟩
  · rw [hl]
    simp only [slots, List.flatMap_append, List.flatMap_cons, List.flatMap_nil, List.append_nil]
    rw [flatMap_congr' f (fun k hk => by rw [primsOf, hne k (hf k hk)]; rfl : ∀ k ∈ f,
      primsOf (h1.setBody e (.array a')) k = primsOf h k)]
    simp only [primsOf, hse, hb, ap, List.append_assoc]
  · intro q hq
    have : h1.prim q ∈ rs.map (fun q => h1.prim q) := List.mem_map_of_mem hq
    rw [i3, List.map_replicate] at this
    exact List.eq_of_mem_replicate this
  · rw [hl, List.map_append, List.map_append, List.map_cons, List.map_nil, List.map_cons, List.map_nil, addShape_append]
    congr 1
    · exact List.map_congr_left (fun k hk => by simp only [shape, hne k (hf k hk)])
    · simp only [shape, hse, hb, addShape, af, ao, i2]
  · intro hs _ k hk
    have hsk := hs k hk
    by_cases hke : k = e
    · subst hke
      simp only [Sound, hse, ao]
      simpa only [Sound, hb] using hsk
    · simpa only [Sound, hne k hke] using hsk
  · intro k hk hna
    rw [hne k (fun hke => hna a (hke ▸ hb))]

theorem add_added (h : Heap) (hok : HeapOk h) (i : Nat) (l : List Nat) (hi : i < h.nn) (hc : h.chain i = .ok l)
    (self : Arr) (hself : (h.node i).body = .array self) (r : Nat) (hr : r < h.np) (len : Option Nat) :
    ∃ h' n l' rs, h.add i r len = (h', .ok n) ∧ Added h h' i r (len.getD 1 - 1) self.order l l' rs := by
  obtain ⟨w1, w2, w3⟩ := (chain_iff h i l).mp hc
  obtain ⟨-, hlt⟩ := chain_lt h hok i hi l hc
  obtain ⟨e, he⟩ : ∃ e, l.getLast? = some e := by
    cases l with
    | nil => cases w1
    | cons x xs => exact ⟨_, List.getLast?_eq_some_getLast (by simp)⟩
  obtain ⟨f, hl⟩ := split_last l e he
  have hlast := lastOf_eq h i e l hc he
  have hel : e ∈ l := List.mem_of_getLast? he
  have hnot : (∀ a, (h.node e).body ≠ .array a) → ∃ h' n l' rs,
      (match (h.newArray self.order []).1.assign e (h.newArray self.order []).2 with
        | (h, .error x) => (h, (.error x : Except PyErr Nat))
        | (h', .ok _) =>
          match (h'.node (h.newArray self.order []).2).body with
          | .array a => ((h'.pushMany (h.newArray self.order []).2 a r len).1,
              .ok (h'.pushMany (h.newArray self.order []).2 a r len).2)
          | _ => (h', .error .attribute)) = (h', .ok n)
      ∧ Added h h' i r (len.getD 1 - 1) self.order l l' rs := by
    intro hna
    have g1 := good_newArray h hok self.order [] (fun q hq => by cases hq)
    have e2 : (h.newArray self.order []).2 = h.nn := rfl
    have enn : (h.newArray self.order []).1.nn = h.nn + 1 := rfl
    have enp : (h.newArray self.order []).1.prim = h.prim := rfl
    have eself : (h.newArray self.order []).1.node h.nn = ⟨.array (Arr.empty self.order), none⟩ := newNode_self h _
    have ene : ∀ k, k ≠ h.nn → (h.newArray self.order []).1.node k = h.node k := fun k hk => newNode_ne h _ k hk
    rw [e2]
    generalize hh1 : (h.newArray self.order []).1 = h1 at *
    have hltn : ∀ k ∈ l, k ≠ h.nn := fun k hk => Nat.ne_of_lt (hlt k hk)
    have hc1 : h1.chain i = .ok l := (chain_iff h1 i l).mpr ⟨w1,
      chained_frame h _ l (fun k hk => by rw [ene k (hltn k hk)]) w2, by omega⟩
    have hcn : h1.chain h.nn = .ok [h.nn] := (chain_iff h1 _ _).mpr ⟨rfl, by
      show (h1.node h.nn).next = none
      rw [eself], by simp; omega⟩
    obtain ⟨a1, a2, a3⟩ := assign_spec h1 g1.1 i h.nn e l [h.nn] (by omega) (by omega) hc1 hcn he (by
      simpa using hltn e hel)
    rw [a1] at a2 a3 ⊢
    dsimp only at a2 a3 ⊢
    generalize hh2 : h1.setNode e ⟨(h1.node e).body, some h.nn⟩ = h2 at *
    have b2 : ∀ k, (h2.node k).body = (h1.node k).body := fun k => by
      rw [← hh2]; exact (setNext_view h1 e _ k).2
    have hb : (h2.node h.nn).body = .array (Arr.empty self.order) := by rw [b2, eself]
    rw [hb]
    dsimp only
    have n2 : h2.nn = h.nn + 1 := by rw [← hh2]; exact enn
    have p2 : h2.prim = h.prim := by rw [← hh2]; exact enp
    have np2 : h2.np = h.np := by rw [← hh2, ← hh1]; rfl
    obtain ⟨rs, hA⟩ := pushMany_added h2 a3 i (l ++ [h.nn]) l h.nn (by omega) a2 rfl _ hb r
      (by rw [np2]; exact hr) len self.order
    have bl : ∀ k ∈ l, (h2.node k).body = (h.node k).body := fun k hk => by rw [b2, ene k (hltn k hk)]
    refine ⟨_, _, l ++ [h.nn], rs, rfl, ?_, hA.chain, List.prefix_append _ _, ?_, hA.len, ?_, hA.nodup, ?_, ?_, ?_, ?_, ?_, ?_, ?_⟩
    · refine ⟨hA.good.1, ?_, ?_, ?_⟩
      · have := hA.good.2.np; omega
      · have := hA.good.2.nn; omega
      · intro q hq; rw [hA.good.2.kind q (by omega), p2]
    · rw [hA.slots]
      simp only [slots, List.flatMap_append, List.flatMap_cons, List.flatMap_nil, List.append_nil]
      rw [flatMap_congr' l (fun k hk => by rw [primsOf, bl k hk]; rfl : ∀ k ∈ l, primsOf h2 k = primsOf h k)]
      simp [primsOf, hb, Arr.empty]
    · intro q hq; rw [← np2]; exact hA.fresh q hq
    · intro q hq; rw [hA.vals q hq, p2]
    · rw [hA.shapes, p2, List.map_append]
      have hss : l.map (shape h2) = l.map (shape h) :=
        List.map_congr_left (fun k hk => by simp only [shape, bl k hk])
      rw [hss]
      simp only [List.map_cons, List.map_nil, addShape_append, hl, List.map_append]
      simp only [shape, hb, addShape, Arr.empty, List.nil_append]
      rw [List.append_assoc]
      congr 1
      cases hbe : (h.node e).body with
      | array a => exact absurd hbe (hna a)
      | fixed d => rfl
      | prefixed p => rfl
    · intro q hq; rw [hA.prims q (by omega), p2]
    · intro hs ho
      apply hA.sound _ ho
      intro k hk
      rcases List.mem_append.mp hk with hk | hk
      · simpa only [Sound, bl k hk] using hs k hk
      · rw [List.mem_singleton.mp hk]
        simp only [Sound, hb, Arr.empty]
        exact ho
    · intro k hk hna'
      rw [hA.old k (List.mem_append_left _ hk) (fun a => by rw [bl k hk]; exact hna' a), bl k hk]
    · intro k hk
      rcases List.mem_append.mp hk with hk | hk
      · exact .inl hk
      · rw [List.mem_singleton.mp hk]; exact .inr (Nat.le_refl _)
    · intro k hk hkl
      have hkn : k ≠ h.nn := by omega
      rw [hA.frame k (by omega) (by simp [hkl, hkn]), ← hh2]
      have hke : k ≠ e := fun hke => hkl (hke ▸ hel)
      simp only [Heap.setNode]
      rw [if_neg hke, ene k hkn]
  unfold Heap.add
  rw [hself]
  dsimp only
  rw [hlast]
  dsimp only
  cases hb : (h.node e).body with
  | array a =>
    obtain ⟨rs, hA⟩ := pushMany_added h hok i l f e hi hc hl a hb r hr len self.order
    exact ⟨_, _, l, rs, rfl, hA⟩
  | fixed d => exact hnot (fun a ha => by rw [hb] at ha; cases ha)
  | prefixed p => exact hnot (fun a ha => by rw [hb] at ha; cases ha)

end Verif.Protocol
