import Verif.Serial.Inv
import Mathlib.Data.List.Nodup
import Mathlib.Data.List.Perm.Subperm
/-! C22 (chains round-trip), C23 (copies and appending). -/
namespace Verif.Serial

open Verif.Wire

/-- The content of a serializable as a user sees it: layout and values. -/
inductive View where
  | array (order : ByteOrder) (cells : List (Kind × Val))
  | fixed (data : Bytes)
  | prefixed (kind : IntKind) (order : ByteOrder) (data : Bytes)
  deriving DecidableEq

def view (h : Heap) (i : Nat) : View :=
  match (h.node i).body with
  | .array a => .array a.order (cells h a)
  | .fixed d => .fixed d
  | .prefixed p => .prefixed p.kind p.order p.data

/-- The primitives a serializable holds. -/
def primsOf (h : Heap) (i : Nat) : List Nat :=
  match (h.node i).body with
  | .array a => a.prims
  | _ => []

/-- Serializables covered by the round-trip property: arrays not in native alignment, chunks, and
prefixed chunks whose last update was not refused. -/
def Sound (h : Heap) (i : Nat) : Prop :=
  match (h.node i).body with
  | .array a => a.order ≠ .native
  | .fixed _ => True
  | .prefixed p => PreOk p

/-- `j` has the layout of a content. -/
def SameShape (h : Heap) (j : Nat) (v : View) : Prop :=
  match (h.node j).body, v with
  | .array b, .array o cs => b.order = o ∧ b.fmt = cs.map Prod.fst
  | .fixed d, .fixed d' => d.length = d'.length
  | .prefixed p, .prefixed k o _ => p.kind = k ∧ p.order = o ∧ p.kind.signed = false
  | _, _ => False

theorem zip_fst_snd {α β : Type} (l : List (α × β)) : (l.map Prod.fst).zip (l.map Prod.snd) = l := by
  induction l with
  | nil => rfl
  | cons x rest ih => simp [ih]

/-- One member: written by one heap, read by another (or the same). -/
theorem read_one (h0 h : Heap) (h0k : HeapOk h0) (hk : HeapOk h) (i j : Nat) (hs : Sound h0 i)
    (hsh : SameShape h j (view h0 i)) (hn : (primsOf h j).Nodup) :
    ∃ bs, h0.bytes i = .ok bs ∧ bs.length = (h0.node i).body.size
      ∧ ∀ rest, ∃ h', h.fromStreamOne j (bs ++ rest) = (h', .ok (bs.length, rest))
        ∧ view h' j = view h0 i ∧ Sound h' j
        ∧ (∀ q, q ∉ primsOf h j → h'.prim q = h.prim q) ∧ (∀ k, k ≠ j → h'.node k = h.node k)
        ∧ (∀ k, primsOf h' k = primsOf h k) ∧ (∀ k, (h'.node k).next = (h.node k).next) ∧ Good h h' := by
  unfold SameShape at hsh
  unfold Sound at hs
  cases hb0 : (h0.node i).body with
  | array a =>
    have hv0 : view h0 i = .array a.order (cells h0 a) := by simp [view, hb0]
    rw [hb0] at hs
    rw [hv0] at hsh
    cases hb : (h.node j).body with
    | fixed d => rw [hb] at hsh; exact hsh.elim
    | prefixed p => rw [hb] at hsh; exact hsh.elim
    | array b =>
      rw [hb] at hsh
      dsimp only at hsh hs
      have ha := h0k.arrays i a hb0
      have hbo := hk.arrays j b hb
      obtain ⟨bs, h1, h2, h3⟩ := pack_unpack a.order (cells h0 a) 0 (cells_typed h0 h0k.typed a)
      rw [fmt_cells h0 a ha] at h2 h3 hsh
      have hlen : bs.length = a.size := by
        rw [calcsize_sum a.order hs, ← ha.size] at h2; omega
      have hbsize : b.size = a.size := by rw [hbo.size, ha.size, hsh.2]
      refine ⟨bs, by rw [bytes_array h0 i a ha hb0, h1], by rw [hlen]; rfl, fun rest => ?_⟩
      have hu : unpack b.order b.fmt bs = .ok ((cells h0 a).map Prod.snd) := by
        rw [hsh.1, hsh.2]
        have := h3 []
        rw [List.append_nil] at this
        rw [unpack, if_pos (by omega), this]
      have hu' : unpackFrom b.order 0 b.fmt bs = .ok ((cells h0 a).map Prod.snd) := by
        unfold unpack at hu; split at hu
        · exact hu
        · cases hu
      have hv := forall2_kinds h b hbo _ (unpackFrom_kinds b.order b.fmt 0 bs _ hu')
      obtain ⟨f1, -, -, f4, f5⟩ := setAll_frame b.prims ((cells h0 a).map Prod.snd) h
      have hpn : primsOf h j = b.prims := by simp [primsOf, hb]
      rw [hpn] at hn ⊢
      have hvals := setAll_vals b.prims _ h hn hv
      have hg := good_setAll h hk b.prims _ hv
      refine ⟨h.setAll b.prims ((cells h0 a).map Prod.snd), ?_, ?_, ?_, f5, fun k _ => by rw [f1],
        fun k => by simp only [primsOf, f1], fun k => by rw [f1], hg⟩
      · have htake : (bs ++ rest).take (Body.array b).size = bs := by
          rw [List.take_append_of_le_length (by simp [Body.size]; omega), List.take_of_length_le (by simp [Body.size]; omega)]
        have hdrop : (bs ++ rest).drop (Body.array b).size = rest := by
          rw [List.drop_append_of_le_length (by simp [Body.size]; omega), List.drop_of_length_le (by simp [Body.size]; omega),
            List.nil_append]
        simp only [Heap.fromStreamOne, hb, Heap.update, htake, hdrop, hu, hlen, hbsize]
      · rw [hv0]
        simp only [view, f1, hb, hsh.1]
        congr 1
        have e1 : cells (h.setAll b.prims ((cells h0 a).map Prod.snd)) b
            = b.fmt.zip ((cells h0 a).map Prod.snd) := by
          exact (zip_cells _ b (hbo.mono hg.2)).symm.trans (congrArg _ hvals)
        rw [e1, hsh.2, ← fmt_cells h0 a ha]
        exact zip_fst_snd _
      · simp only [Sound, f1, hb, hsh.1]; exact hs
  | fixed d =>
    have hv0 : view h0 i = .fixed d := by simp [view, hb0]
    rw [hv0] at hsh
    cases hb : (h.node j).body with
    | array b => rw [hb] at hsh; exact hsh.elim
    | prefixed p => rw [hb] at hsh; exact hsh.elim
    | fixed d' =>
      rw [hb] at hsh
      dsimp only at hsh
      have hjn : j < h.nn ∨ h.nn ≤ j := Nat.lt_or_ge _ _
      refine ⟨d, by simp [Heap.bytes, hb0], rfl, fun rest => ⟨h.setBody j (.fixed d), ?_, ?_, ?_, fun _ _ => rfl, ?_, ?_, ?_, ?_⟩⟩
      · simp [Heap.fromStreamOne, hb, Heap.update, Body.size, hsh]
      · rw [hv0]; simp [view, Heap.setBody, Heap.setNode]
      · simp [Sound, Heap.setBody, Heap.setNode]
      · intro k hkj; simp [Heap.setBody, Heap.setNode, hkj]
      · intro k
        by_cases hkj : k = j
        · subst hkj; simp [primsOf, Heap.setBody, Heap.setNode, hb]
        · simp [primsOf, Heap.setBody, Heap.setNode, hkj]
      · intro k
        by_cases hkj : k = j
        · subst hkj; simp [Heap.setBody, Heap.setNode]
        · simp [Heap.setBody, Heap.setNode, hkj]
      · exact good_setBody' h hk j _ (fun a ha => by cases ha)
  | prefixed p =>
    have hv0 : view h0 i = .prefixed p.kind p.order p.data := by simp [view, hb0]
    rw [hv0] at hsh
    rw [hb0] at hs
    cases hb : (h.node j).body with
    | array b => rw [hb] at hsh; exact hsh.elim
    | fixed d => rw [hb] at hsh; exact hsh.elim
    | prefixed p' =>
      rw [hb] at hsh
      dsimp only at hsh hs
      obtain ⟨e1, e2, e3⟩ := hsh
      obtain ⟨b, eb, el, ed⟩ := (C01_encode_decode p.kind p.order p.pfx).1 ((packable_iff _ _).mp hs.fits)
      rw [← spec_bytes] at el
      have hpn : p.pfx.toNat = p.data.length := by rw [hs.pfx]; simp
      refine ⟨b ++ p.data, by simp [Heap.bytes, hb0, eb], by simp [Body.size, hs.size, el], fun rest =>
        ⟨h.setBody j (.prefixed ⟨p'.kind, p'.order, p.pfx, p.data, p'.kind.size + p.pfx.toNat⟩),
          ?_, ?_, ?_, fun _ _ => rfl, ?_, ?_, ?_, ?_⟩⟩
      · have ht : (b ++ p.data ++ rest).take p'.kind.size = b := by
          rw [e1, ← el, List.append_assoc]; simp
        have hd : (b ++ p.data ++ rest).drop p'.kind.size = p.data ++ rest := by
          rw [e1, ← el, List.append_assoc]; simp
        have hdec : decodeInt p'.kind p'.order b = .ok p.pfx := by rw [e1, e2]; exact ed
        simp only [Heap.fromStreamOne, hb, ht, hd, hdec, Pre.updateSize, hs.pfx]
        simp [el, e1]
      · rw [hv0]; simp [view, Heap.setBody, Heap.setNode, e1, e2]
      · simp only [Sound, Heap.setBody, Heap.setNode, if_true]
        exact ⟨e3, hs.pfx, by rw [e1]; exact hs.fits, by rw [hpn]⟩
      · intro k hkj; simp [Heap.setBody, Heap.setNode, hkj]
      · intro k
        by_cases hkj : k = j
        · subst hkj; simp [primsOf, Heap.setBody, Heap.setNode, hb]
        · simp [primsOf, Heap.setBody, Heap.setNode, hkj]
      · intro k
        by_cases hkj : k = j
        · subst hkj; simp [Heap.setBody, Heap.setNode]
        · simp [Heap.setBody, Heap.setNode, hkj]
      · exact good_setBody' h hk j _ (fun a ha => by cases ha)

/-! ### C22 -/

theorem flatMap_congr' {α β : Type} (l : List α) {f g : α → List β} (h : ∀ x ∈ l, f x = g x) :
    l.flatMap f = l.flatMap g := by
  induction l with
  | nil => rfl
  | cons x rest ih =>
    rw [List.flatMap_cons, List.flatMap_cons, h x List.mem_cons_self,
      ih (fun y hy => h y (List.mem_cons_of_mem _ hy))]

theorem sameShape_frame (h0 h h1 : Heap) (l l' : List Nat) (hnode : ∀ y ∈ l', h1.node y = h.node y)
    (hf : List.Forall₂ (fun i j => SameShape h j (view h0 i)) l l') :
    List.Forall₂ (fun i j => SameShape h1 j (view h0 i)) l l' := by
  induction hf with
  | nil => exact .nil
  | @cons x y xs ys hxy _ ih2 =>
    refine .cons ?_ (ih2 (fun j' hj' => hnode j' (List.mem_cons_of_mem _ hj')))
    unfold SameShape at hxy ⊢
    rw [hnode y List.mem_cons_self]
    exact hxy

theorem readAll_spec (h0 : Heap) (h0k : HeapOk h0) (l l' : List Nat) (h : Heap) (hk : HeapOk h)
    (hs : ∀ i ∈ l, Sound h0 i) (hsh : List.Forall₂ (fun i j => SameShape h j (view h0 i)) l l')
    (hn : l'.Nodup) (hp : (l'.flatMap (primsOf h)).Nodup) :
    ∃ bs, h0.writeAll l = .ok (bs, bs.length)
      ∧ bs.length = (l.map (fun i => (h0.node i).body.size)).sum
      ∧ ∀ rest, ∃ h', h.readAll l' (bs ++ rest) = (h', .ok (bs.length, rest))
        ∧ l'.map (view h') = l.map (view h0) ∧ (∀ j ∈ l', Sound h' j)
        ∧ (∀ q, q ∉ l'.flatMap (primsOf h) → h'.prim q = h.prim q) ∧ (∀ k, k ∉ l' → h'.node k = h.node k)
        ∧ (∀ k, primsOf h' k = primsOf h k) ∧ (∀ k, (h'.node k).next = (h.node k).next) ∧ Good h h' := by
  induction l generalizing l' h with
  | nil =>
    cases hsh
    exact ⟨[], rfl, rfl, fun rest => ⟨h, rfl, rfl, fun _ hj => (by cases hj), fun _ _ => rfl, fun _ _ => rfl,
      fun _ => rfl, fun _ => rfl, hk, Le.refl h⟩⟩
  | cons i l ih =>
    cases hsh
    rename_i j l' hij hrest
    have hn' := List.nodup_cons.mp hn
    rw [List.flatMap_cons] at hp
    have hp' := List.nodup_append.mp hp
    obtain ⟨b, w1, w2, w3⟩ := read_one h0 h h0k hk i j (hs i List.mem_cons_self) hij hp'.1
    -- the rest of the chain keeps its shape while the first member is read
    have hshape : ∀ h1 : Heap, (∀ k, k ≠ j → h1.node k = h.node k) →
        List.Forall₂ (fun i j => SameShape h1 j (view h0 i)) l l' := by
      intro h1 hnode
      exact sameShape_frame h0 h h1 l l' (fun y hy => hnode y (fun e => hn'.1 (e ▸ hy))) hrest
    obtain ⟨h1, r1, r2, r3, r4, r5, r6, r7, r8⟩ := w3 []
    have hp1 : (l'.flatMap (primsOf h1)).Nodup := by
      have : l'.flatMap (primsOf h1) = l'.flatMap (primsOf h) := by
        exact flatMap_congr' l' (fun k _ => r6 k)
      rw [this]; exact hp'.2.1
    obtain ⟨bs, v1, v2, -⟩ := ih l' h1 r8.1 (fun k hk => hs k (List.mem_cons_of_mem _ hk)) (hshape h1 r5) hn'.2 hp1
    refine ⟨b ++ bs, ?_, ?_, fun rest => ?_⟩
    · simp only [Heap.writeAll, w1, v1, ← w2, List.length_append]
    · simp [w2, v2]
    · clear r1 r2 r3 r4 r5 r6 r7 r8 hp1
      obtain ⟨h1, r1, r2, r3, r4, r5, r6, r7, r8⟩ := w3 (bs ++ rest)
      have hp1 : (l'.flatMap (primsOf h1)).Nodup := by
        have : l'.flatMap (primsOf h1) = l'.flatMap (primsOf h) := by
          exact flatMap_congr' l' (fun k _ => r6 k)
        rw [this]; exact hp'.2.1
      obtain ⟨bs', v1', v2', v3⟩ := ih l' h1 r8.1 (fun k hk => hs k (List.mem_cons_of_mem _ hk)) (hshape h1 r5) hn'.2 hp1
      rw [v1] at v1'
      have hbs : bs = bs' := by
        have := Except.ok.inj v1'
        exact (Prod.mk.inj this).1
      subst hbs
      obtain ⟨h2, s1, s2, s3, s4, s5, s6, s7, s8⟩ := v3 rest
      have hflat : l'.flatMap (primsOf h1) = l'.flatMap (primsOf h) := by
        exact flatMap_congr' l' (fun k _ => r6 k)
      rw [hflat] at s4
      have hjview : view h2 j = view h1 j := by
        unfold view
        rw [s5 j hn'.1]
        cases hb : (h1.node j).body with
        | fixed d => rfl
        | prefixed p => rfl
        | array a =>
          simp only [cells]
          congr 1
          apply List.map_congr_left
          intro q hq
          have hq' : q ∈ primsOf h j := by rw [← r6 j]; simp only [primsOf, hb]; exact hq
          rw [s4 q (fun hm => hp'.2.2 q hq' q hm rfl)]
      refine ⟨h2, ?_, ?_, ?_, ?_, ?_, fun k => (s6 k).trans (r6 k), fun k => (s7 k).trans (r7 k), r8.trans s8⟩
      · rw [List.append_assoc]
        simp only [Heap.readAll, r1, s1, List.length_append]
      · rw [List.map_cons, List.map_cons, hjview, r2, s2]
      · intro k hk
        rcases List.mem_cons.mp hk with rfl | hk
        · have : Sound h2 k ↔ Sound h1 k := by unfold Sound; rw [s5 k hn'.1]
          exact this.mpr r3
        · exact s3 k hk
      · intro q hq
        rw [List.flatMap_cons, List.mem_append] at hq
        rw [s4 q (fun hm => hq (Or.inr hm)), r4 q (fun hm => hq (Or.inl hm))]
      · intro k hk
        rw [s5 k (fun hm => hk (List.mem_cons_of_mem _ hm)), r5 k (fun e => hk (e ▸ List.mem_cons_self))]

end Verif.Serial
