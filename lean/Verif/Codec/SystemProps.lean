import Verif.Codec.System

/-!
C73: proofs about the type system.
-/
namespace Verif.Codec

variable {κ : Type}

/-! ### Names -/

theorem full_append (a b : List Name) (n : Name) : full (a ++ b) n = full a (full b n) := by
  induction a with
  | nil => rfl
  | cons x a ih => simp [full, ih]

theorem full_inj (a : List Name) (n m : Name) (h : full a n = full a m) : n = m := by
  induction a with
  | nil => exact h
  | cons x a ih =>
    simp only [full] at h
    have := List.append_cancel_left h
    simp only [List.cons.injEq, true_and] at this
    exact ih this

/-- A name under a namespace has a colon. -/
theorem full_colon (a : List Name) (n : Name) (h : a ≠ []) : ':' ∈ full a n := by
  cases a with
  | nil => exact absurd rfl h
  | cons x a => simp [full]

/-- `resolve_name` picks a match that is strictly shorter than every other one. -/
theorem foldl_min (ms : List Name) (a : Nat) :
    (ms.foldl (fun a x => if x.length < a then x.length else a) a ≤ a) ∧
    (∀ m ∈ ms, ms.foldl (fun a x => if x.length < a then x.length else a) a ≤ m.length) ∧
    (ms.foldl (fun a x => if x.length < a then x.length else a) a = a ∨
      ∃ m ∈ ms, ms.foldl (fun a x => if x.length < a then x.length else a) a = m.length) := by
  induction ms generalizing a with
  | nil => simp
  | cons m ms ih =>
    obtain ⟨h1, h2, h3⟩ := ih (if m.length < a then m.length else a)
    simp only [List.foldl_cons]
    refine ⟨?_, ?_, ?_⟩
    · refine Nat.le_trans h1 ?_
      split <;> omega
    · intro x hx
      rcases List.mem_cons.mp hx with rfl | hx
      · refine Nat.le_trans h1 ?_
        split <;> omega
      · exact h2 x hx
    · rcases h3 with h3 | ⟨x, hx, h3⟩
      · by_cases hm : m.length < a
        · rw [if_pos hm] at h3 ⊢
          exact .inr ⟨m, List.mem_cons_self, h3⟩
        · rw [if_neg hm] at h3 ⊢
          exact .inl h3
      · exact .inr ⟨x, List.mem_cons_of_mem _ hx, h3⟩

theorem filter_singleton {α : Type} (p : α → Bool) (l : List α) (r : α) (h : l.filter p = [r]) :
    ∃ pre post, l = pre ++ r :: post ∧ p r = true ∧ (∀ x ∈ pre, p x = false) ∧ (∀ x ∈ post, p x = false) := by
  induction l with
  | nil => simp at h
  | cons a l ih =>
    by_cases ha : p a = true
    · rw [List.filter_cons_of_pos ha] at h
      simp only [List.cons.injEq] at h
      obtain ⟨rfl, h⟩ := h
      refine ⟨[], l, rfl, ha, by simp, ?_⟩
      intro x hx
      have := List.filter_eq_nil_iff.mp h x hx
      simpa using this
    · rw [List.filter_cons_of_neg ha] at h
      obtain ⟨pre, post, e, h1, h2, h3⟩ := ih h
      refine ⟨a :: pre, post, by rw [e]; rfl, h1, ?_, h3⟩
      intro x hx
      rcases List.mem_cons.mp hx with rfl | hx
      · simpa using ha
      · exact h2 x hx

/-- C73. What `resolve_name` answers: the match that is strictly shorter than all others, and it answers
whenever there is one. -/
theorem C73_resolve (ms : List Name) (r : Name) :
    resolveName ms = .ok r ↔
      ∃ pre post, ms = pre ++ r :: post ∧ (∀ x ∈ pre ++ post, r.length < x.length) := by
  cases ms with
  | nil => simp [resolveName]
  | cons m ms =>
    obtain ⟨h1, h2, h3⟩ := foldl_min ms m.length
    simp only [resolveName]
    generalize hk : ms.foldl (fun a x => if x.length < a then x.length else a) m.length = k at *
    have hmin : ∀ x ∈ m :: ms, k ≤ x.length := by
      intro x hx
      rcases List.mem_cons.mp hx with rfl | hx
      · exact h1
      · exact h2 x hx
    have hex : ∃ x ∈ m :: ms, k = x.length := by
      rcases h3 with h3 | ⟨x, hx, h3⟩
      · exact ⟨m, List.mem_cons_self, h3⟩
      · exact ⟨x, List.mem_cons_of_mem _ hx, h3⟩
    constructor
    · intro h
      have hf : (m :: ms).filter (fun x => x.length == k) = [r] := by
        generalize (m :: ms).filter (fun x => x.length == k) = l at h
        match l, h with
        | [x], h => simp at h; rw [h]
      obtain ⟨pre, post, e, hr, hp, hq⟩ := filter_singleton _ _ _ hf
      have hrk : r.length = k := by simpa using hr
      refine ⟨pre, post, e, ?_⟩
      intro x hx
      have hle : k ≤ x.length := by
        apply hmin
        rw [e]
        rcases List.mem_append.mp hx with hx | hx
        · exact List.mem_append_left _ hx
        · exact List.mem_append_right _ (List.mem_cons_of_mem _ hx)
      have hne : (x.length == k) = false := by
        rcases List.mem_append.mp hx with hx | hx
        · exact hp x hx
        · exact hq x hx
      have hne' : x.length ≠ k := by simpa using hne
      omega
    · rintro ⟨pre, post, e, hlt⟩
      have hrk : r.length = k := by
        obtain ⟨x, hx, hxk⟩ := hex
        have hrm : r ∈ m :: ms := by rw [e]; simp
        have h1' := hmin r hrm
        rw [e] at hx
        rcases List.mem_append.mp hx with hx | hx
        · have := hlt x (List.mem_append_left _ hx); omega
        · rcases List.mem_cons.mp hx with rfl | hx
          · exact hxk.symm
          · have := hlt x (List.mem_append_right _ hx); omega
      have hf : (m :: ms).filter (fun x => x.length == k) = [r] := by
        rw [e, List.filter_append, List.filter_cons_of_pos (by simpa using hrk)]
        have hpre : pre.filter (fun x => x.length == k) = [] := by
          apply List.filter_eq_nil_iff.mpr
          intro x hx
          have := hlt x (List.mem_append_left _ hx)
          simp; omega
        have hpost : post.filter (fun x => x.length == k) = [] := by
          apply List.filter_eq_nil_iff.mpr
          intro x hx
          have := hlt x (List.mem_append_right _ hx)
          simp; omega
        rw [hpre, hpost]
        rfl
      rw [hf]

/-! ### Layouts -/

theorem flat_addPrims (ks : List κ) (c : Chain κ) : (addPrims ks c).flatten = c.flatten ++ ks := by
  induction c with
  | nil => simp [addPrims]
  | cons s t ih =>
    cases t with
    | nil => simp [addPrims]
    | cons s' t' => rw [addPrims, List.flatten_cons, ih]; simp; simp

theorem flat_addChain (d : Chain κ) (len : Option Int) (t : Chain κ) :
    (addChain d len t).flatten = t.flatten ++ (List.replicate (copies len) d.flatten).flatten := by
  simp only [addChain, List.flatten_append]
  congr 1
  induction copies len with
  | zero => rfl
  | succ n ih => simp [List.replicate_succ, ih]

/-- The primitives of one element. -/
def Content.kinds : Content κ → List κ
  | .prim k => [k]
  | .chain d => d.flatten

theorem flat_extend (c : Content κ) (len : Option Int) (t : Chain κ) :
    (extend c len t).flatten = t.flatten ++ (List.replicate (copies len) c.kinds).flatten := by
  cases c with
  | prim k =>
    simp only [extend, flat_addPrims, Content.kinds]
    congr 1
    induction copies len with
    | zero => rfl
    | succ n ih => simp [List.replicate_succ, ← ih]
  | chain d => exact flat_addChain d len t

theorem chainSize_flat (size : κ → Nat) (c : Chain κ) : chainSize size c = (c.flatten.map size).sum := by
  induction c with
  | nil => rfl
  | cons s t ih =>
    simp only [chainSize, List.map_cons, List.sum_cons, List.flatten_cons, List.map_append, List.sum_append] at ih ⊢
    rw [ih]

theorem sum_replicate (size : κ → Nat) (n : Nat) (l : List κ) :
    ((List.replicate n l).flatten.map size).sum = n * (l.map size).sum := by
  induction n with
  | zero => simp
  | succ n ih =>
    simp only [List.replicate_succ, List.flatten_cons, List.map_append, List.sum_append, ih]
    rw [Nat.succ_mul]; omega

theorem chainSize_extend (size : κ → Nat) (c : Content κ) (len : Option Int) (t : Chain κ) :
    chainSize size (extend c len t) = chainSize size t + copies len * (c.kinds.map size).sum := by
  rw [chainSize_flat, flat_extend, List.map_append, List.sum_append, sum_replicate, ← chainSize_flat]

theorem copies_eq (len : Option Int) :
    copies len = len.elim 1 fun n => (max 1 n).toNat := by
  cases len with
  | none => rfl
  | some n => simp only [copies, Option.elim]; omega

/-! ### Invariant of reachable systems -/

theorem mem_keys {β : Type} (d : List (Name × β)) (n : Name) : n ∈ keys d ↔ (dget d n).isSome := by
  rw [← dget_isSome, keys]
  simp [List.any_eq_true]

theorem mem_keys_dset {β : Type} (d : List (Name × β)) (k : Name) (v : β) (x : Name) :
    x ∈ keys (dset d k v) ↔ x = k ∨ x ∈ keys d := by
  rw [mem_keys, mem_keys, dget_dset]
  by_cases h : k = x
  · subst h; simp
  · have h' : ¬ x = k := fun e => h e.symm
    simp [h, h']

/-- What every reachable type system satisfies; `base` are the names of the primitives. -/
structure Inv (base : List Name) (s : Sys κ) : Prop where
  tracked : s.tracked.Nodup
  prims_tracked : ∀ n ∈ keys s.prims, n ∈ s.tracked
  custom_tracked : ∀ n ∈ keys s.custom, n ∈ s.tracked
  plain : ∀ n ∈ base, ':' ∉ n
  prims : ∀ n ∈ keys s.prims, n ∈ base ∨ n ∈ keys s.enums
  enums : ∀ n k, dget s.enums n = some k → n = byteOrder ∨ dget s.prims n = some k
  custom : ∀ n ∈ keys s.custom, n ∉ base

theorem find_custom (sr : Search) (s : Sys κ) (name : Name) (ns : List Name) (exact : Bool)
    (h : full (s.root ++ ns) name ∈ keys s.custom) (hn : name ∉ keys s.prims) :
    find sr s name ns exact = .ok (some (full (s.root ++ ns) name)) := by
  rw [find, if_neg hn, if_pos h]

theorem filter_eq_self (l : List Name) (c : Name) (h : l.Nodup) (hc : c ∈ l) :
    l.filter (fun x => x == c) = [c] := by
  induction l with
  | nil => cases hc
  | cons a l ih =>
    have ⟨h1, h2⟩ := List.nodup_cons.mp h
    rcases List.mem_cons.mp hc with rfl | hc
    · rw [List.filter_cons_of_pos (by simp)]
      congr 1
      apply List.filter_eq_nil_iff.mpr
      intro x hx
      have : x ≠ c := fun e => h1 (e ▸ hx)
      simpa using this
    · have : a ≠ c := fun e => h1 (e ▸ hc)
      rw [List.filter_cons_of_neg (by simpa using this)]
      exact ih h2 hc

theorem find_tracked (sr : Search) (s : Sys κ) (name : Name) (ns : List Name) (ht : s.tracked.Nodup)
    (h : full (s.root ++ ns) name ∈ s.tracked) (hn : name ∉ keys s.prims) :
    find sr s name ns true = .ok (some (full (s.root ++ ns) name)) := by
  rw [find, if_neg hn]
  by_cases hc : full (s.root ++ ns) name ∈ keys s.custom
  · rw [if_pos hc]
  · rw [if_neg hc]
    simp only [Bool.not_true, Bool.false_or]
    rw [filter_eq_self _ _ (sr.nodup _ _ _ ht) (sr.finds _ _ _ h)]

/-- An exact search finds the name itself or the name under the stack, nothing else. -/
theorem find_exact (sr : Search) (s : Sys κ) (name : Name) (ns : List Name) (x : Name) (ht : s.tracked.Nodup)
    (h : find sr s name ns true = .ok (some x)) :
    (x = name ∧ name ∈ keys s.prims) ∨
      (name ∉ keys s.prims ∧ x = full (s.root ++ ns) name ∧ (x ∈ keys s.custom ∨ x ∈ s.tracked)) := by
  rw [find] at h
  by_cases hn : name ∈ keys s.prims
  · rw [if_pos hn] at h
    cases h
    exact .inl ⟨rfl, hn⟩
  · rw [if_neg hn] at h
    refine .inr ⟨hn, ?_⟩
    by_cases hc : full (s.root ++ ns) name ∈ keys s.custom
    · rw [if_pos hc] at h
      cases h
      exact ⟨rfl, .inl hc⟩
    · rw [if_neg hc] at h
      simp only [Bool.not_true, Bool.false_or] at h
      by_cases hm : full (s.root ++ ns) name ∈ sr.search s.tracked (s.root ++ ns) name
      · rw [filter_eq_self _ _ (sr.nodup _ _ _ ht) hm] at h
        cases h
        exact ⟨rfl, .inr (sr.sub _ _ _ _ hm)⟩
      · have : (sr.search s.tracked (s.root ++ ns) name).filter (fun x => x == full (s.root ++ ns) name) = [] := by
          apply List.filter_eq_nil_iff.mpr
          intro y hy
          have : y ≠ full (s.root ++ ns) name := fun e => hm (e ▸ hy)
          simpa using this
        rw [this] at h
        cases h

/-- A new name is either not tracked yet, or the name proper is one of the primitives' and the new name
has a namespace. -/
theorem newName_ok (sr : Search) (s : Sys κ) (name : Name) (ns : List Name) (n : Name) (s' : Sys κ)
    (ht : s.tracked.Nodup) (h : newName sr s name ns = .ok (n, s')) :
    n = full (s.root ++ ns) name ∧ s' = track s n ∧
      ((name ∉ keys s.prims ∧ n ∉ s.tracked ∧ n ∉ keys s.custom) ∨
        (name ∈ keys s.prims ∧ s.root ++ ns ≠ [] ∧ n ≠ name)) := by
  rw [newName] at h
  cases hf : find sr s name ns true with
  | error e => rw [hf] at h; cases h
  | ok r =>
    rw [hf] at h
    by_cases hr : r = some (full (s.root ++ ns) name)
    · simp only [hr, if_true] at h
      cases h
    · simp only [if_neg hr, Except.ok.injEq, Prod.mk.injEq] at h
      obtain ⟨rfl, rfl⟩ := h
      refine ⟨rfl, rfl, ?_⟩
      by_cases hn : name ∈ keys s.prims
      · refine .inr ⟨hn, ?_, ?_⟩
        · intro e
          rw [find, if_pos hn] at hf
          cases hf
          apply hr
          rw [e]
          rfl
        · intro e
          rw [find, if_pos hn] at hf
          cases hf
          exact hr (by rw [e])
      · refine .inl ⟨hn, ?_, ?_⟩
        · intro hm
          rw [find_tracked sr s name ns ht hm hn] at hf
          cases hf
          exact hr rfl
        · intro hm
          rw [find_custom sr s name ns true hm hn] at hf
          cases hf
          exact hr rfl

theorem track_root (s : Sys κ) (n : Name) : (track s n).root = s.root := by
  unfold track; split <;> rfl
theorem track_prims (s : Sys κ) (n : Name) : (track s n).prims = s.prims := by
  unfold track; split <;> rfl
theorem track_enums (s : Sys κ) (n : Name) : (track s n).enums = s.enums := by
  unfold track; split <;> rfl
theorem track_custom (s : Sys κ) (n : Name) : (track s n).custom = s.custom := by
  unfold track; split <;> rfl

theorem mem_track (s : Sys κ) (n x : Name) : x ∈ (track s n).tracked ↔ x ∈ s.tracked ∨ x = n := by
  unfold track
  by_cases h : n ∈ s.tracked
  · rw [if_pos h]
    exact ⟨.inl, fun h' => h'.elim id (fun e => e ▸ h)⟩
  · rw [if_neg h]; simp

theorem track_nodup (s : Sys κ) (n : Name) (h : s.tracked.Nodup) : (track s n).tracked.Nodup := by
  unfold track
  by_cases hn : n ∈ s.tracked
  · rw [if_pos hn]; exact h
  · rw [if_neg hn]
    refine List.nodup_append.mpr ⟨h, by simp, ?_⟩
    intro a ha b hb
    simp at hb
    subst hb
    exact fun e => hn (e ▸ ha)

theorem track_inv (base : List Name) (s : Sys κ) (n : Name) (h : Inv base s) : Inv base (track s n) where
  tracked := track_nodup s n h.tracked
  prims_tracked := by rw [track_prims]; exact fun x hx => (mem_track s n x).mpr (.inl (h.prims_tracked x hx))
  custom_tracked := by rw [track_custom]; exact fun x hx => (mem_track s n x).mpr (.inl (h.custom_tracked x hx))
  plain := h.plain
  prims := by rw [track_prims, track_enums]; exact h.prims
  enums := by rw [track_prims, track_enums]; exact h.enums
  custom := by rw [track_custom]; exact h.custom

theorem withByteOrder_inv (base : List Name) (u8 : κ) (s : Sys κ) (h : Inv base s) :
    Inv base (withByteOrder u8 s) := by
  unfold withByteOrder
  by_cases hb : byteOrder ∈ keys s.enums
  · rw [if_pos hb]; exact h
  · rw [if_neg hb]
    refine ⟨h.tracked, h.prims_tracked, h.custom_tracked, h.plain, ?_, ?_, h.custom⟩
    · intro n hn
      rcases h.prims n hn with h' | h'
      · exact .inl h'
      · refine .inr ?_
        simp only [keys, List.map_append, List.mem_append]
        exact .inl h'
    · intro n k hk
      dsimp only at hk ⊢
      rw [dget_append] at hk
      cases hd : dget s.enums n with
      | some k' =>
        rw [hd] at hk
        cases hk
        exact h.enums n k hd
      | none =>
        rw [hd] at hk
        by_cases hn : n = byteOrder
        · exact .inl hn
        · exfalso
          simp only [dget_cons, dget_nil] at hk
          rw [if_neg (fun e => hn e.symm)] at hk
          cases hk

theorem withByteOrder_root (u8 : κ) (s : Sys κ) : (withByteOrder u8 s).root = s.root := by
  unfold withByteOrder; split <;> rfl
theorem withByteOrder_prims (u8 : κ) (s : Sys κ) : (withByteOrder u8 s).prims = s.prims := by
  unfold withByteOrder; split <;> rfl
theorem withByteOrder_custom (u8 : κ) (s : Sys κ) : (withByteOrder u8 s).custom = s.custom := by
  unfold withByteOrder; split <;> rfl
theorem withByteOrder_tracked (u8 : κ) (s : Sys κ) : (withByteOrder u8 s).tracked = s.tracked := by
  unfold withByteOrder; split <;> rfl

/-- A name that `newName` hands out is none of the primitives' proper names. -/
theorem newName_base (sr : Search) (base : List Name) (s : Sys κ) (name : Name) (ns : List Name) (n : Name)
    (s' : Sys κ) (hi : Inv base s) (hb : ∀ x ∈ base, x ∈ s.tracked) (h : newName sr s name ns = .ok (n, s')) :
    n ∉ base := by
  obtain ⟨e, _, h' | ⟨_, hst, _⟩⟩ := newName_ok sr s name ns n s' hi.tracked h
  · exact fun hm => h'.2.1 (hb n hm)
  · intro hm
    apply hi.plain n hm
    rw [e]
    exact full_colon _ _ hst

/-- One call keeps the invariant. -/
theorem register_inv (sr : Search) (u8 : κ) (base : List Name) (s : Sys κ) (name : Name) (ns : List Name)
    (hi : Inv base s) (hb : ∀ x ∈ base, x ∈ s.tracked) : Inv base (register sr u8 s name ns).1 := by
  have hi1 := withByteOrder_inv base u8 s hi
  have hb1 : ∀ x ∈ base, x ∈ (withByteOrder u8 s).tracked := by rw [withByteOrder_tracked]; exact hb
  unfold register
  generalize withByteOrder u8 s = s1 at *
  cases hn : newName sr s1 name ns with
  | error e => exact hi1
  | ok r =>
    obtain ⟨n, s'⟩ := r
    have hbase := newName_base sr base s1 name ns n s' hi1 hb1 hn
    obtain ⟨_, rfl, _⟩ := newName_ok sr s1 name ns n s' hi1.tracked hn
    have hi2 := track_inv base s1 n hi1
    refine ⟨hi2.tracked, hi2.prims_tracked, ?_, hi2.plain, hi2.prims, hi2.enums, ?_⟩
    · intro x hx
      rcases (mem_keys_dset _ _ _ _).mp hx with h' | h'
      · exact (mem_track s1 n x).mpr (.inr h')
      · exact hi2.custom_tracked x h'
    · intro x hx
      rcases (mem_keys_dset _ _ _ _).mp hx with h' | h'
      · rw [h']; exact hbase
      · exact hi2.custom x h'

theorem enum_inv (sr : Search) (accepts : Name → Bool) (base : List Name) (s : Sys κ) (name : Name)
    (ns : List Name) (k : κ) (hi : Inv base s) (hb : ∀ x ∈ base, x ∈ s.tracked) :
    Inv base (enum sr accepts s name ns k).1 := by
  unfold enum
  cases hn : newName sr s name ns with
  | error e => exact hi
  | ok r =>
    obtain ⟨n, s'⟩ := r
    have hbase := newName_base sr base s name ns n s' hi hb hn
    obtain ⟨_, rfl, _⟩ := newName_ok sr s name ns n s' hi.tracked hn
    have hi2 := track_inv base s n hi
    have hmem : n ∈ (track s n).tracked := (mem_track s n n).mpr (.inr rfl)
    generalize track s n = t at *
    dsimp only
    by_cases hc : n ∈ keys t.enums ∨ accepts n = false
    · rw [if_pos hc]; exact hi2
    · rw [if_neg hc]
      have hne : n ∉ keys t.enums := fun h => hc (.inl h)
      have hnp : n ∉ keys t.prims := by
        intro h
        rcases hi2.prims n h with h' | h'
        · exact hbase h'
        · exact hne h'
      rw [if_neg hnp]
      refine ⟨hi2.tracked, ?_, hi2.custom_tracked, hi2.plain, ?_, ?_, hi2.custom⟩
      · intro x hx
        simp only [keys, List.map_append, List.mem_append, List.map_cons, List.map_nil, List.mem_singleton] at hx
        rcases hx with hx | rfl
        · exact hi2.prims_tracked x hx
        · exact hmem
      · intro x hx
        simp only [keys, List.map_append, List.mem_append, List.map_cons, List.map_nil, List.mem_singleton] at hx ⊢
        rcases hx with hx | rfl
        · rcases hi2.prims x hx with h' | h'
          · exact .inl h'
          · exact .inr (.inl h')
        · exact .inr (.inr rfl)
      · intro x kx hx
        dsimp only at hx ⊢
        rw [dget_append] at hx ⊢
        cases hd : dget t.enums x with
        | some k' =>
          rw [hd] at hx
          cases hx
          rcases hi2.enums x kx hd with h' | h'
          · exact .inl h'
          · rw [h']; exact .inr rfl
        | none =>
          rw [hd] at hx
          have hx' : dget [(n, k)] x = some kx := hx
          rw [dget_cons] at hx'
          by_cases hxn : n = x
          · subst hxn
            right
            have : dget t.prims n = none := by
              cases hp : dget t.prims n with
              | none => rfl
              | some v => exact absurd ((mem_keys _ _).mpr (by rw [hp]; rfl)) hnp
            rw [this]
            exact hx
          · rw [if_neg hxn, dget_nil] at hx'
            cases hx'

theorem add_ok (sr : Search) (valid : Name → Bool) (s : Sys κ) (ct fl ft : Name) (len : Option Int) (exact : Bool)
    (t f : Name) (h : (add sr valid s ct fl ft len exact).2 = .ok (t, f)) :
    ∃ chain c, dget s.custom t = some chain ∧ content s f = .ok c ∧
      findStrict sr s ct [] exact = .ok t ∧ findStrict sr s ft [] exact = .ok f ∧ valid fl = true ∧
      (add sr valid s ct fl ft len exact).1 = { s with custom := dset s.custom t (extend c len chain) } := by
  unfold add at h ⊢
  cases h1 : findStrict sr s ct [] exact with
  | error e => simp only [h1] at h; cases h
  | ok t' =>
    cases h2 : findStrict sr s ft [] exact with
    | error e => simp only [h1, h2] at h; cases h
    | ok f' =>
      cases h3 : dget s.custom t' with
      | none => simp only [h1, h2, h3] at h; cases h
      | some chain =>
        cases h4 : content s f' with
        | error e => simp only [h1, h2, h3, h4] at h; cases h
        | ok c =>
          simp only [h1, h2, h3, h4] at h ⊢
          by_cases hv : valid fl = true
          · simp only [hv, if_true, Except.ok.injEq, Prod.mk.injEq] at h ⊢
            obtain ⟨rfl, rfl⟩ := h
            exact ⟨chain, c, h3, h4, rfl, rfl, by simp, rfl⟩
          · rw [if_neg hv] at h
            cases h

theorem add_error (sr : Search) (valid : Name → Bool) (s : Sys κ) (ct fl ft : Name) (len : Option Int) (exact : Bool)
    (e : PyErr) (h : (add sr valid s ct fl ft len exact).2 = .error e) :
    (add sr valid s ct fl ft len exact).1 = s := by
  unfold add at h ⊢
  cases h1 : findStrict sr s ct [] exact with
  | error e => rfl
  | ok t' =>
    cases h2 : findStrict sr s ft [] exact with
    | error e => rfl
    | ok f' =>
      cases h3 : dget s.custom t' with
      | none => simp only [h3]
      | some chain =>
        cases h4 : content s f' with
        | error e => simp only [h3, h4]
        | ok c =>
          simp only [h1, h2, h3, h4] at h ⊢
          by_cases hv : valid fl = true
          · simp only [hv, if_true] at h; cases h
          · rw [if_neg hv]

theorem add_inv (sr : Search) (valid : Name → Bool) (base : List Name) (s : Sys κ) (ct fl ft : Name)
    (len : Option Int) (exact : Bool) (hi : Inv base s) :
    Inv base (add sr valid s ct fl ft len exact).1 := by
  cases hr : (add sr valid s ct fl ft len exact).2 with
  | error e => rw [add_error sr valid s ct fl ft len exact e hr]; exact hi
  | ok r =>
    obtain ⟨t, f⟩ := r
    obtain ⟨chain, c, h1, _, _, _, _, h2⟩ := add_ok sr valid s ct fl ft len exact t f hr
    rw [h2]
    have ht : t ∈ keys s.custom := (mem_keys _ _).mpr (by rw [h1]; rfl)
    refine ⟨hi.tracked, hi.prims_tracked, ?_, hi.plain, hi.prims, hi.enums, ?_⟩
    · intro x hx
      rcases (mem_keys_dset _ _ _ _).mp hx with h' | h'
      · rw [h']; exact hi.custom_tracked t ht
      · exact hi.custom_tracked x h'
    · intro x hx
      rcases (mem_keys_dset _ _ _ _).mp hx with h' | h'
      · rw [h']; exact hi.custom t ht
      · exact hi.custom x h'

theorem step_tracked (w : World κ) (s : Sys κ) (o : Op κ) (hn : s.tracked.Nodup) :
    ∀ x ∈ s.tracked, x ∈ (step w s o).1.tracked := by
  intro x hx
  cases o with
  | register name ns =>
    simp only [step, register]
    cases h : newName w.sr (withByteOrder w.u8 s) name ns with
    | error e => rw [withByteOrder_tracked]; exact hx
    | ok r =>
      obtain ⟨n, s'⟩ := r
      obtain ⟨_, rfl, _⟩ := newName_ok _ _ _ _ _ _ (by rw [withByteOrder_tracked]; exact hn) h
      exact (mem_track _ _ _).mpr (.inl (by rw [withByteOrder_tracked]; exact hx))
  | enum name ns k =>
    simp only [step, enum]
    cases h : newName w.sr s name ns with
    | error e => exact hx
    | ok r =>
      obtain ⟨n, s'⟩ := r
      obtain ⟨_, rfl, _⟩ := newName_ok _ _ _ _ _ _ hn h
      have : x ∈ (track s n).tracked := (mem_track _ _ _).mpr (.inl hx)
      dsimp only
      split
      · exact this
      · split <;> exact this
  | add ct fl ft len ex =>
    simp only [step]
    cases hr : (add w.sr w.valid s ct fl ft len ex).2 with
    | error e => rw [add_error _ _ _ _ _ _ _ _ e hr]; exact hx
    | ok r =>
      obtain ⟨t, f⟩ := r
      obtain ⟨chain, c, _, _, _, _, _, h2⟩ := add_ok _ _ _ _ _ _ _ _ t f hr
      rw [h2]; exact hx

/-- A reachable state: the invariant and the primitives' names tracked. -/
structure Reach (base : List Name) (s : Sys κ) : Prop where
  inv : Inv base s
  based : ∀ x ∈ base, x ∈ s.tracked

theorem step_reach (w : World κ) (base : List Name) (s : Sys κ) (o : Op κ) (h : Reach base s) :
    Reach base (step w s o).1 := by
  refine ⟨?_, fun x hx => step_tracked w s o h.inv.tracked x (h.based x hx)⟩
  cases o with
  | register name ns => exact register_inv _ _ _ _ _ _ h.inv h.based
  | enum name ns k => exact enum_inv _ _ _ _ _ _ _ h.inv h.based
  | add ct fl ft len ex => exact add_inv _ _ _ _ _ _ _ _ _ h.inv

theorem run_reach (w : World κ) (base : List Name) (s : Sys κ) (ops : List (Op κ)) (h : Reach base s) :
    Reach base (run w s ops) := by
  induction ops generalizing s with
  | nil => exact h
  | cons o ops ih => exact ih _ (step_reach w base s o h)

theorem new_reach (root : List Name) (prims : List (Name × κ)) (u8 : κ) (hp : ∀ n ∈ keys prims, ':' ∉ n)
    (hd : (keys prims).Nodup) : Reach (keys prims) (Sys.new root prims u8) := by
  have hbo : full ["runtimepy".toList] byteOrder ∉ keys prims :=
    fun h => hp _ h (full_colon _ _ (by simp))
  have hnone : dget prims (full ["runtimepy".toList] byteOrder) = none := by
    cases h : dget prims (full ["runtimepy".toList] byteOrder) with
    | none => rfl
    | some v => exact absurd ((mem_keys _ _).mpr (by rw [h]; rfl)) hbo
  constructor
  · constructor
    · simp only [Sys.new]
      refine List.nodup_append.mpr ⟨hd, by simp, ?_⟩
      intro a ha b hb
      simp only [List.mem_singleton] at hb
      rw [hb]
      exact fun e => hbo (e ▸ ha)
    · intro n hn
      simpa [Sys.new, keys] using hn
    · intro n hn
      simp [Sys.new, keys] at hn
    · exact hp
    · intro n hn
      simp only [Sys.new, keys, List.map_append, List.mem_append] at hn ⊢
      exact hn
    · intro n k hk
      simp only [Sys.new] at hk ⊢
      rw [dget_append]
      right
      rw [dget_cons] at hk
      by_cases hn : full ["runtimepy".toList] byteOrder = n
      · rw [← hn, hnone]
        rw [if_pos hn] at hk
        rw [← hk]
        show dget [(_, u8)] _ = some u8
        rw [dget_cons, if_pos rfl]
      · rw [if_neg hn, dget_nil] at hk
        cases hk
    · intro n hn
      simp [Sys.new, keys] at hn
  · intro x hx
    simp only [Sys.new, List.mem_append]
    exact .inl hx

end Verif.Codec
