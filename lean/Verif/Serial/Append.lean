import Verif.Serial.Apart
/-! C23: appending to chains. -/
namespace Verif.Serial

open Verif.Wire

theorem chained_last (h : Heap) (l : List Nat) (hc : Chained h l) (x : Nat) (hx : l.getLast? = some x) :
    (h.node x).next = none := by
  induction l with
  | nil => cases hx
  | cons y ys ih =>
    cases ys with
    | nil => cases hx; exact hc
    | cons z zs => exact ih hc.2 (by simpa using hx)

/-- Two chains sharing a member end in the same member. -/
theorem chained_share (h : Heap) (l l' : List Nat) (hc : Chained h l) (hc' : Chained h l') (x : Nat)
    (hx : x ∈ l) (hx' : x ∈ l') : l.getLast? = l'.getLast? := by
  obtain ⟨p, t, e1, e2⟩ := chained_suffix h l hc x hx
  obtain ⟨p', t', e3, e4⟩ := chained_suffix h l' hc' x hx'
  have := chained_det h (x :: t) (x :: t') e2 e4 rfl
  rw [e1, e3, this]
  simp [List.getLast?_append, List.getLast?_cons]

theorem chained_link (h h' : Heap) (l l' : List Nat) (hc : Chained h l) (hc' : Chained h' l') (e j : Nat)
    (he : l.getLast? = some e) (hj : l'.head? = some j) (hn : (h'.node e).next = some j)
    (hf : ∀ k ∈ l, k ≠ e → (h'.node k).next = (h.node k).next) : Chained h' (l ++ l') := by
  have hnd := chained_nodup h l hc
  induction l with
  | nil => cases he
  | cons x xs ih =>
    cases xs with
    | nil =>
      cases he
      cases l' with
      | nil => cases hj
      | cons y ys => cases hj; exact ⟨hn, hc'⟩
    | cons z zs =>
      have hxe : x ≠ e := by
        rintro rfl
        have : x ∈ z :: zs := List.mem_of_getLast? (by simpa using he)
        exact (List.nodup_cons.mp hnd).1 this
      refine ⟨?_, ih hc.2 (by simpa using he) (fun k hk => hf k (List.mem_cons_of_mem _ hk))
        (List.nodup_cons.mp hnd).2⟩
      rw [hf x List.mem_cons_self hxe]
      exact hc.1

theorem lastOf_eq (h : Heap) (i e : Nat) (l : List Nat) (hc : h.chain i = .ok l) (he : l.getLast? = some e) :
    h.lastOf i = .ok e := by
  unfold Heap.lastOf
  rw [hc]
  simp [Except.map, List.getLastD_eq_getLast?, he]

/-- Linking the end of a chain to another chain. -/
theorem assign_spec (h : Heap) (hk : HeapOk h) (i j e : Nat) (l l' : List Nat) (hi : i < h.nn) (hj : j < h.nn)
    (hc : h.chain i = .ok l) (hc' : h.chain j = .ok l') (he : l.getLast? = some e) (hne : e ∉ l') :
    h.assign e j = (h.setNode e ⟨(h.node e).body, some j⟩, .ok (h.node j).body.size)
    ∧ (h.assign e j).1.chain i = .ok (l ++ l') ∧ HeapOk (h.assign e j).1 := by
  obtain ⟨w1, w2, w3⟩ := (chain_iff h i l).mp hc
  obtain ⟨v1, v2, v3⟩ := (chain_iff h j l').mp hc'
  obtain ⟨-, lt1⟩ := chain_lt h hk i hi l hc
  obtain ⟨-, lt2⟩ := chain_lt h hk j hj l' hc'
  have hlast := chained_last h l w2 e he
  have e0 : h.assign e j = (h.setNode e ⟨(h.node e).body, some j⟩, .ok (h.node j).body.size) := by
    unfold Heap.assign
    rw [hlast]
  refine ⟨e0, ?_, (good_assign h hk e j (lt1 e (List.mem_of_getLast? he)) hj).1⟩
  rw [e0]
  have hfr : ∀ k, k ≠ e → (h.setNode e ⟨(h.node e).body, some j⟩).node k = h.node k := by
    intro k hk'; simp [Heap.setNode, hk']
  have hch : Chained (h.setNode e ⟨(h.node e).body, some j⟩) (l ++ l') := by
    apply chained_link h _ l l' w2 (chained_frame h _ l' (fun k hk' => ?_) v2) e j he v1
    · simp [Heap.setNode]
    · intro k _ hke; rw [hfr k hke]
    · rw [hfr k (fun e' => hne (e' ▸ hk'))]
  refine (chain_iff _ i _).mpr ⟨?_, hch, ?_⟩
  · cases l with
    | nil => cases w1
    | cons x xs => simpa using w1
  · apply nodup_length_le _ (chained_nodup _ _ hch)
    intro k hk'
    rcases List.mem_append.mp hk' with hk' | hk'
    · exact lt1 k hk'
    · exact lt2 k hk'

/-- Changing links changes no contents. -/
theorem setNext_view (h : Heap) (e : Nat) (o : Option Nat) (k : Nat) :
    view (h.setNode e ⟨(h.node e).body, o⟩) k = view h k
    ∧ ((h.setNode e ⟨(h.node e).body, o⟩).node k).body = (h.node k).body := by
  by_cases hke : k = e
  · subst hke; simp [view, Heap.setNode, cells]
  · simp [view, Heap.setNode, hke, cells]

theorem getLast?_append' {α : Type} (l l' : List α) (h : l' ≠ []) : (l ++ l').getLast? = l'.getLast? := by
  cases l' with
  | nil => exact absurd rfl h
  | cons x xs => simp [List.getLast?_append, List.getLast?_cons]

/-- C23. Appending a chain to another one, of which it is not a tail: the new members come after
all the old ones, nothing else changes. -/
theorem C23_append (h : Heap) (hk : HeapOk h) (i j : Nat) (l l' : List Nat) (hi : i < h.nn) (hj : j < h.nn)
    (hc : h.chain i = .ok l) (hc' : h.chain j = .ok l') (hne : l.getLast? ≠ l'.getLast?) :
    ∃ h', h.addToEnd i j none = (h', .ok (h.node j).body.size) ∧ h'.chain i = .ok (l ++ l')
      ∧ h'.chain j = .ok l' ∧ h'.prim = h.prim
      ∧ (∀ k, (h'.node k).body = (h.node k).body)
      ∧ (∀ k, l.getLast? ≠ some k → (h'.node k).next = (h.node k).next) := by
  obtain ⟨w1, w2, w3⟩ := (chain_iff h i l).mp hc
  obtain ⟨v1, v2, v3⟩ := (chain_iff h j l').mp hc'
  obtain ⟨e, he⟩ : ∃ e, l.getLast? = some e := by
    cases l with
    | nil => cases w1
    | cons x xs => exact ⟨_, List.getLast?_eq_some_getLast (by simp)⟩
  have hnot : e ∉ l' := fun hm => hne (chained_share h l l' w2 v2 e (List.mem_of_getLast? he) hm)
  obtain ⟨a1, a2, a3⟩ := assign_spec h hk i j e l l' hi hj hc hc' he hnot
  have hadd : h.addToEnd i j none = h.assign e j := by
    unfold Heap.addToEnd
    dsimp only
    rw [lastOf_eq h i e l hc he]
    dsimp only
    rw [a1]
  rw [hadd, a1]
  rw [a1] at a2
  refine ⟨_, rfl, a2, ?_, rfl, fun k => (setNext_view h e _ k).2, fun k hk' => ?_⟩
  · refine (chain_iff _ j l').mpr ⟨v1, chained_frame h _ l' (fun k hk' => ?_) v2, v3⟩
    have : k ≠ e := fun e' => hnot (e' ▸ hk')
    simp [Heap.setNode, this]
  · have : k ≠ e := by rintro rfl; exact hk' he
    simp [Heap.setNode, this]

/-- Appending copies of a chain. -/
theorem addCopies_spec (n : Nat) (h : Heap) (hk : HeapOk h) (i b : Nat) (l lb : List Nat) (size : Nat)
    (hi : i < h.nn) (hb : b < h.nn) (hc : h.chain i = .ok l) (hcb : h.chain b = .ok lb)
    (hne : l.getLast? ≠ lb.getLast?) :
    ∃ h' s extra, h.addCopies i b n size = (h', .ok s) ∧ h'.chain i = .ok (l ++ extra) ∧ HeapOk h'
      ∧ extra.map (view h') = (List.replicate n (lb.map (view h))).flatten
      ∧ (∀ k ∈ extra, h.nn ≤ k) ∧ (∀ k ∈ extra, ∀ q ∈ primsOf h' k, h.np ≤ q)
      ∧ (∀ k, k < h.nn → (h'.node k).body = (h.node k).body)
      ∧ (∀ k, k < h.nn → l.getLast? ≠ some k → (h'.node k).next = (h.node k).next)
      ∧ (∀ q, q < h.np → h'.prim q = h.prim q) ∧ h.nn ≤ h'.nn ∧ h.np ≤ h'.np := by
  induction n generalizing h l size with
  | zero =>
    exact ⟨h, size, [], rfl, by simpa using hc, hk, rfl, fun k hk => (by cases hk), fun k hk => (by cases hk),
      fun _ _ => rfl, fun _ _ _ => rfl, fun _ _ => rfl, Nat.le_refl _, Nat.le_refl _⟩
  | succ n ih =>
    obtain ⟨w1, w2, w3⟩ := (chain_iff h i l).mp hc
    obtain ⟨hl0, hlt⟩ := chain_lt h hk i hi l hc
    obtain ⟨hlb0, hltb⟩ := chain_lt h hk b hb lb hcb
    obtain ⟨h1, c, lc, c1, c2, c3, c4, c5, c6, c7, c8, c9, c10, c11⟩ := copy_spec h hk b hb lb hcb
    obtain ⟨x1, x2, x3⟩ := (chain_iff h1 c lc).mp c2
    obtain ⟨b1, b2, b3⟩ := (chain_iff h b lb).mp hcb
    have hci1 : h1.chain i = .ok l := (chain_iff h1 i l).mpr ⟨w1,
      chained_frame h h1 l (fun k hk' => by rw [c6.node k (hlt k hk')]) w2, Nat.le_trans w3 c6.nn⟩
    obtain ⟨e, he⟩ : ∃ e, l.getLast? = some e := by
      cases l with
      | nil => cases w1
      | cons x xs => exact ⟨_, List.getLast?_eq_some_getLast (by simp)⟩
    have hem := List.mem_of_getLast? he
    have helt := hlt e hem
    have hnotc : e ∉ lc := fun hm => by have := (c8 e hm).1; omega
    have hcm := List.mem_of_mem_head? x1
    have hclt := (c8 c hcm).2
    obtain ⟨a1, a2, a3⟩ := assign_spec h1 c7 i c e l lc (Nat.lt_of_lt_of_le hi c6.nn) hclt hci1 c2 he hnotc
    unfold Heap.addCopies
    rw [c1]
    dsimp only
    rw [lastOf_eq h1 i e l hci1 he]
    dsimp only
    rw [a1]
    dsimp only
    rw [a1] at a2 a3
    dsimp only at a2 a3
    generalize hh2 : h1.setNode e ⟨(h1.node e).body, some c⟩ = h2 at a2 a3
    have hnn2 : h2.nn = h1.nn := by rw [← hh2]; rfl
    have hnp2 : h2.np = h1.np := by rw [← hh2]; rfl
    have hp2 : h2.prim = h1.prim := by rw [← hh2]; rfl
    have hfr2 : ∀ k, k ≠ e → h2.node k = h1.node k := by
      intro k hk'; rw [← hh2]; simp [Heap.setNode, hk']
    have hv2 : ∀ k, view h2 k = view h1 k := fun k => by rw [← hh2]; exact (setNext_view h1 e _ k).1
    have hb2 : ∀ k, (h2.node k).body = (h1.node k).body := fun k => by
      rw [← hh2]; exact (setNext_view h1 e _ k).2
    have hlc0 : lc ≠ [] := by rintro rfl; cases x1
    have heb : e ∉ lb := fun hm => hne (chained_share h l lb w2 b2 e hem hm)
    have hcb2 : h2.chain b = .ok lb := by
      refine (chain_iff h2 b lb).mpr ⟨b1, chained_frame h h2 lb (fun k hk' => ?_) b2, ?_⟩
      · rw [hfr2 k (fun e' => heb (e' ▸ hk')), c6.node k (hltb k hk')]
      · have := c6.nn; omega
    have hne2 : (l ++ lc).getLast? ≠ lb.getLast? := by
      rw [getLast?_append' l lc hlc0]
      intro h'
      cases hx : lc.getLast? with
      | none => exact hlc0 (List.getLast?_eq_none_iff.mp hx)
      | some y =>
        have h3 := (c8 y (List.mem_of_getLast? hx)).1
        rw [hx] at h'
        have h4 := hltb y (List.mem_of_getLast? h'.symm)
        omega
    obtain ⟨h', s, extra, r1, r2, r3, r4, r5, r6, r7, r8, r9, r10, r11⟩ :=
      ih h2 a3 (l ++ lc) (size + (h1.node c).body.size) (by have := c6.nn; omega) (by have := c6.nn; omega) a2
        hcb2 hne2
    have hn12 := c6.nn
    have hp12 := c6.np
    have hvp : ∀ k ∈ lc, view h' k = view h1 k ∧ primsOf h' k = primsOf h1 k := by
      intro k hk'
      have hlt' := (c8 k hk').2
      have e1 := r7 k (by omega)
      rw [hb2] at e1
      constructor
      · unfold view
        rw [e1]
        cases hbd : (h1.node k).body with
        | fixed d => rfl
        | prefixed p => rfl
        | array a =>
          simp only [cells]
          congr 1
          refine List.map_congr_left (fun r hr => ?_)
          have hq := (c9 k hk' r (by simpa [primsOf, hbd] using hr)).2
          rw [r9 r (by omega), hp2]
      · unfold primsOf; rw [e1]
    refine ⟨h', s, lc ++ extra, ?_, by rw [r2, List.append_assoc], r3, ?_, ?_, ?_, ?_, ?_, ?_, by omega, by omega⟩
    · rw [hh2] at *; exact r1
    · rw [List.map_append, r4, List.replicate_succ, List.flatten_cons]
      have t1 : lc.map (view h') = lb.map (view h) := by
        rw [← c4]; exact List.map_congr_left (fun k hk' => (hvp k hk').1)
      have t2 : lb.map (view h2) = lb.map (view h) := by
        refine List.map_congr_left (fun k hk' => ?_)
        rw [hv2, (ext_same hk c6 k (hltb k hk')).1]
      rw [t1, t2]
    · intro k hk'
      rcases List.mem_append.mp hk' with hk' | hk'
      · exact (c8 k hk').1
      · have := r5 k hk'; omega
    · intro k hk' q hq
      rcases List.mem_append.mp hk' with hk' | hk'
      · rw [(hvp k hk').2] at hq; exact (c9 k hk' q hq).1
      · have := r6 k hk' q hq; omega
    · intro k hk'
      rw [r7 k (by omega), hb2, c6.node k hk']
    · intro k hk' hkl
      have hke : k ≠ e := by rintro rfl; exact hkl he
      rw [r8 k (by omega), hfr2 k hke, c6.node k hk']
      rw [getLast?_append' l lc hlc0]
      intro hx
      have := (c8 k (List.mem_of_getLast? hx)).1
      omega
    · intro q hq
      rw [r9 q (by omega), hp2, c6.prim q hq]

/-- C23. Appending an array of `n ≥ 1` members: the given chain, then `n - 1` copies of it as it
was, all made of new objects; nothing else changes. -/
theorem C23_append_array (h : Heap) (hk : HeapOk h) (i j n : Nat) (l l' : List Nat) (hi : i < h.nn)
    (hj : j < h.nn) (hc : h.chain i = .ok l) (hc' : h.chain j = .ok l') (hne : l.getLast? ≠ l'.getLast?) :
    ∃ h' s extra, h.addToEnd i j (some n) = (h', .ok s) ∧ h'.chain i = .ok (l ++ l' ++ extra)
      ∧ extra.map (view h') = (List.replicate (n - 1) (l'.map (view h))).flatten
      ∧ (∀ k ∈ extra, h.nn ≤ k) ∧ (∀ k ∈ extra, ∀ q ∈ primsOf h' k, h.np ≤ q)
      ∧ (∀ k, k < h.nn → (h'.node k).body = (h.node k).body)
      ∧ (∀ k, k < h.nn → l.getLast? ≠ some k → l'.getLast? ≠ some k → (h'.node k).next = (h.node k).next)
      ∧ (∀ q, q < h.np → h'.prim q = h.prim q) := by
  obtain ⟨w1, w2, w3⟩ := (chain_iff h i l).mp hc
  obtain ⟨v1, v2, v3⟩ := (chain_iff h j l').mp hc'
  obtain ⟨hl0, hlt⟩ := chain_lt h hk i hi l hc
  obtain ⟨hl'0, hlt'⟩ := chain_lt h hk j hj l' hc'
  obtain ⟨e, he⟩ : ∃ e, l.getLast? = some e := by
    cases l with
    | nil => cases w1
    | cons x xs => exact ⟨_, List.getLast?_eq_some_getLast (by simp)⟩
  have hem := List.mem_of_getLast? he
  have hnot : e ∉ l' := fun hm => hne (chained_share h l l' w2 v2 e hem hm)
  obtain ⟨h1, b, lb, c1, c2, c3, c4, c5, c6, c7, c8, c9, c10, c11⟩ := copy_spec h hk j hj l' hc'
  obtain ⟨x1, x2, x3⟩ := (chain_iff h1 b lb).mp c2
  have hn12 := c6.nn
  have hp12 := c6.np
  have hci1 : h1.chain i = .ok l := (chain_iff h1 i l).mpr ⟨w1,
    chained_frame h h1 l (fun k hk' => by rw [c6.node k (hlt k hk')]) w2, Nat.le_trans w3 c6.nn⟩
  obtain ⟨a1, a2, a3⟩ := assign_spec h1 c7 i j e l l' (Nat.lt_of_lt_of_le hi c6.nn)
    (Nat.lt_of_lt_of_le hj c6.nn) hci1 c3 he hnot
  rw [a1] at a2 a3
  dsimp only at a2 a3
  generalize hh2 : h1.setNode e ⟨(h1.node e).body, some j⟩ = h2 at a2 a3
  have hnn2 : h2.nn = h1.nn := by rw [← hh2]; rfl
  have hnp2 : h2.np = h1.np := by rw [← hh2]; rfl
  have hp2 : h2.prim = h1.prim := by rw [← hh2]; rfl
  have hfr2 : ∀ k, k ≠ e → h2.node k = h1.node k := by
    intro k hk'; rw [← hh2]; simp [Heap.setNode, hk']
  have hv2 : ∀ k, view h2 k = view h1 k := fun k => by rw [← hh2]; exact (setNext_view h1 e _ k).1
  have hb2 : ∀ k, (h2.node k).body = (h1.node k).body := fun k => by
    rw [← hh2]; exact (setNext_view h1 e _ k).2
  have hbm := List.mem_of_mem_head? x1
  have hblt := (c8 b hbm).2
  have hcb2 : h2.chain b = .ok lb := by
    refine (chain_iff h2 b lb).mpr ⟨x1, chained_frame h1 h2 lb (fun k hk' => ?_) x2, by omega⟩
    have h3 := (c8 k hk').1
    have h4 := hlt e hem
    rw [hfr2 k (by omega)]
  have hne2 : (l ++ l').getLast? ≠ lb.getLast? := by
    rw [getLast?_append' l l' hl'0]
    intro h'
    cases hx : l'.getLast? with
    | none => exact hl'0 (List.getLast?_eq_none_iff.mp hx)
    | some y =>
      have h4 := hlt' y (List.mem_of_getLast? hx)
      rw [hx] at h'
      have h3 := (c8 y (List.mem_of_getLast? h'.symm)).1
      omega
  obtain ⟨h', s, extra, r1, r2, r3, r4, r5, r6, r7, r8, r9, r10, r11⟩ :=
    addCopies_spec (n - 1) h2 a3 i b (l ++ l') lb (h1.node j).body.size (by omega) (by omega) a2 hcb2 hne2
  have hadd : h.addToEnd i j (some n) = (h', .ok s) := by
    unfold Heap.addToEnd
    dsimp only
    rw [c1]
    dsimp only
    rw [lastOf_eq h1 i e l hci1 he]
    dsimp only
    rw [a1]
    dsimp only
    rw [hh2]
    exact r1
  refine ⟨h', s, extra, hadd, r2, ?_, fun k hk' => ?_, fun k hk' q hq => ?_, fun k hk' => ?_,
    fun k hk' k1 k2 => ?_, fun q hq => ?_⟩
  · rw [r4]
    congr 2
    rw [← c4]
    exact List.map_congr_left (fun k hk' => hv2 k)
  · have := r5 k hk'; omega
  · have := r6 k hk' q hq; omega
  · rw [r7 k (by omega), hb2, c6.node k hk']
  · have hke : k ≠ e := by rintro rfl; exact k1 he
    rw [r8 k (by omega) (by rw [getLast?_append' l l' hl'0]; exact k2), hfr2 k hke, c6.node k hk']
  · rw [r9 q (by omega), hp2, c6.prim q hq]

end Verif.Serial
