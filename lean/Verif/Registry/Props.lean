import Verif.Registry.Model
import Batteries.Tactic.Init
/-! Properties C16 (two-way mapping), C17 (name registration), C18 (registries), C19 (enumerations). -/
namespace Verif.Registry

set_option linter.unusedSectionVars false

variable {K : Type} [DecidableEq K]

namespace Spec

/-- The two directions agree: `n` is the name of `k` exactly when `k` is the identifier of `n`. -/
def Bij (m : Mapping K) : Prop :=
  ∀ k n, m.nameOf (.id k) = some n ↔ m.identifier (.name n) = some k

/-- `d` refuses nothing that `m` knew. -/
def Extends (m m' : Mapping K) : Prop :=
  ∀ k n, m.nameOf (.id k) = some n → m'.nameOf (.id k) = some n

end Spec

/-! ### C16 -/

theorem set_new (validName : String → Bool) (m : Mapping K) (k : K) (n : String)
    (hv : validName n = true) (h1 : dget m.mapping k = none) (h2 : dget m.reverse n = none) :
    m.set validName k n = (⟨dset m.mapping k n, dset m.reverse n k, m.order ++ [n]⟩, .ok ()) := by
  simp [Mapping.set, hv, h1, h2]

theorem set_known (validName : String → Bool) (m : Mapping K) (k : K) (n : String)
    (hv : validName n = true) (h1 : dget m.mapping k = some n) (h2 : dget m.reverse n = some k) :
    m.set validName k n = (m, .ok ()) := by
  simp [Mapping.set, hv, h1, h2]

/-- What a successful pairing means, given consistent directions. -/
theorem set_ok {validName : String → Bool} {m m' : Mapping K} {k : K} {n : String}
    (hb : Spec.Bij m) (h : m.set validName k n = (m', .ok ())) :
    validName n = true ∧
    ((dget m.mapping k = some n ∧ dget m.reverse n = some k ∧ m' = m) ∨
     (dget m.mapping k = none ∧ dget m.reverse n = none ∧
      m' = ⟨dset m.mapping k n, dset m.reverse n k, m.order ++ [n]⟩)) := by
  unfold Mapping.set at h
  split at h
  · rename_i hv
    refine ⟨hv, ?_⟩
    cases h1 : dget m.mapping k with
    | none =>
      simp only [h1, if_true] at h
      cases h2 : dget m.reverse n with
      | none =>
        simp only [h2, Prod.mk.injEq] at h
        exact Or.inr ⟨rfl, rfl, h.1.symm⟩
      | some c =>
        simp only [h2, Prod.mk.injEq] at h
        have hc : c = k := by
          by_cases hc : c = k
          · exact hc
          · rw [if_neg hc] at h; cases h.2
        have := (hb k n).mpr (by rw [← hc]; exact h2)
        simp only [Mapping.nameOf, h1] at this
        cases this
    | some c =>
      simp only [h1] at h
      by_cases hcn : c = n
      · subst hcn
        have h2 := (hb k c).mp h1
        simp only [Mapping.identifier] at h2
        simp only [beq_self_eq_true, if_true, h2, Prod.mk.injEq] at h
        exact Or.inl ⟨rfl, h2, h.1.symm⟩
      · have : (c == n) = false := by simpa using hcn
        simp [this] at h
  · cases h

/-- C16. A successful pairing keeps the two directions consistent, adds exactly that pair and
keeps all others. -/
theorem C16_pairing (validName : String → Bool) (m m' : Mapping K) (k : K) (n : String)
    (hb : Spec.Bij m) (h : m.set validName k n = (m', .ok ())) :
    Spec.Bij m' ∧ Spec.Extends m m'
    ∧ (∀ k' n', m'.nameOf (.id k') = some n' ↔ (m.nameOf (.id k') = some n' ∨ (k' = k ∧ n' = n))) := by
  obtain ⟨-, ⟨h1, h2, rfl⟩ | ⟨h1, h2, rfl⟩⟩ := set_ok hb h
  · refine ⟨hb, fun _ _ h => h, fun k' n' => ⟨Or.inl, ?_⟩⟩
    rintro (h | ⟨rfl, rfl⟩)
    · exact h
    · exact h1
  · have hmap : ∀ k' n', dget (dset m.mapping k n) k' = some n' ↔
        (dget m.mapping k' = some n' ∨ (k' = k ∧ n' = n)) := by
      intro k' n'
      rw [dget_dset]
      by_cases hk : k = k'
      · subst hk
        rw [if_pos rfl, h1]
        constructor
        · intro h; exact Or.inr ⟨rfl, (Option.some.inj h).symm⟩
        · rintro (h | ⟨-, rfl⟩)
          · cases h
          · rfl
      · rw [if_neg hk]
        exact ⟨Or.inl, fun h => h.elim id (fun h => absurd h.1.symm hk)⟩
    refine ⟨?_, fun k' n' h => (hmap k' n').mpr (Or.inl h), hmap⟩
    intro k' n'
    simp only [Mapping.nameOf, Mapping.identifier]
    rw [hmap, dget_dset]
    by_cases hn : n = n'
    · subst hn
      rw [if_pos rfl]
      constructor
      · rintro (h | ⟨rfl, -⟩)
        · have := (hb k' n).mp h
          simp only [Mapping.identifier, h2] at this
          cases this
        · rfl
      · intro h; exact Or.inr ⟨(Option.some.inj h).symm, rfl⟩
    · rw [if_neg hn]
      have := hb k' n'
      simp only [Mapping.nameOf, Mapping.identifier] at this
      rw [← this]
      exact ⟨fun h => h.elim id (fun h => absurd h.2.symm hn), Or.inl⟩

/-- C16. Loading any list of pairs without an exception keeps the mapping a bijection; it then
contains exactly the old and the loaded pairs. -/
theorem C16_load (validName : String → Bool) (pairs : List (K × String)) (m m' : Mapping K)
    (hb : Spec.Bij m) (h : m.load validName pairs = (m', .ok ())) :
    Spec.Bij m' ∧ ∀ k n, m'.nameOf (.id k) = some n ↔ (m.nameOf (.id k) = some n ∨ (k, n) ∈ pairs) := by
  induction pairs generalizing m with
  | nil =>
    simp only [Mapping.load, Prod.mk.injEq] at h
    obtain ⟨rfl, -⟩ := h
    exact ⟨hb, fun k n => by simp⟩
  | cons p rest ih =>
    obtain ⟨k0, n0⟩ := p
    unfold Mapping.load at h
    cases hs : m.set validName k0 n0 with
    | mk m1 res =>
      rw [hs] at h
      cases res with
      | error e => simp at h
      | ok u =>
        obtain ⟨b1, -, b3⟩ := C16_pairing validName m m1 k0 n0 hb hs
        obtain ⟨c1, c2⟩ := ih m1 b1 h
        refine ⟨c1, fun k n => ?_⟩
        rw [c2, b3, List.mem_cons, Prod.mk.injEq]
        constructor
        · rintro ((h | h) | h)
          exacts [Or.inl h, Or.inr (Or.inl h), Or.inr (Or.inr h)]
        · rintro (h | h | h)
          exacts [Or.inl (Or.inl h), Or.inl (Or.inr h), Or.inr h]

theorem bij_empty : Spec.Bij (Mapping.empty : Mapping K) := by
  intro k n; simp [Mapping.nameOf, Mapping.identifier, Mapping.empty, dget_nil]

/-- C16. A mapping that could be constructed is a bijection containing exactly the given pairs;
so inconsistent data is always rejected by the constructor. -/
theorem C16_construct (validName : String → Bool) (mapping : List (K × String))
    (reverse : List (String × K)) (m : Mapping K)
    (h : Mapping.new validName mapping reverse = .ok m) :
    Spec.Bij m ∧ ∀ k n, m.nameOf (.id k) = some n ↔ ((k, n) ∈ mapping ∨ (n, k) ∈ reverse) := by
  unfold Mapping.new at h
  cases h1 : (Mapping.empty : Mapping K).load validName mapping with
  | mk m1 r1 =>
    rw [h1] at h
    cases r1 with
    | error e => cases h
    | ok u =>
      simp only at h
      cases h2 : m1.load validName (reverse.map (fun p => (p.2, p.1))) with
      | mk m2 r2 =>
        rw [h2] at h
        cases r2 with
        | error e => cases h
        | ok u2 =>
          have : m2 = m := by simpa using h
          subst this
          obtain ⟨b1, b2⟩ := C16_load validName mapping _ _ bij_empty h1
          obtain ⟨c1, c2⟩ := C16_load validName _ _ _ b1 h2
          refine ⟨c1, fun k n => ?_⟩
          rw [c2, b2]
          simp only [Mapping.nameOf, Mapping.empty, dget_nil, List.mem_map, Prod.mk.injEq]
          constructor
          · rintro ((h | h) | ⟨p, hp, rfl, rfl⟩)
            · cases h
            · exact Or.inl h
            · exact Or.inr hp
          · rintro (h | h)
            · exact Or.inl (Or.inr h)
            · exact Or.inr ⟨(n, k), h, rfl, rfl⟩

/-- The exact counterpart: consistent data with acceptable names is accepted. -/
theorem C16_construct_accepts (validName : String → Bool) (pairs : List (K × String)) (m : Mapping K)
    (hb : Spec.Bij m) (hv : ∀ p ∈ pairs, validName p.2 = true)
    (hc : ∀ p ∈ pairs, ∀ q ∈ pairs, p.1 = q.1 ↔ p.2 = q.2)
    (hm : ∀ p ∈ pairs, ∀ k n, m.nameOf (.id k) = some n → (p.1 = k ↔ p.2 = n)) :
    ∃ m', m.load validName pairs = (m', .ok ()) := by
  induction pairs generalizing m with
  | nil => exact ⟨m, rfl⟩
  | cons p rest ih =>
    obtain ⟨k0, n0⟩ := p
    have hv0 := hv (k0, n0) List.mem_cons_self
    have hset : ∃ m1, m.set validName k0 n0 = (m1, .ok ()) := by
      cases h1 : dget m.mapping k0 with
      | some c =>
        have hcn := (hm (k0, n0) List.mem_cons_self k0 c h1).mp rfl
        simp only at hcn; subst hcn
        exact ⟨m, set_known validName m k0 n0 hv0 h1 ((hb k0 n0).mp h1)⟩
      | none =>
        cases h2 : dget m.reverse n0 with
        | some c =>
          have h3 := (hb c n0).mpr h2
          have := (hm (k0, n0) List.mem_cons_self c n0 h3).mpr rfl
          simp only at this; subst this
          simp only [Mapping.nameOf, h1] at h3; cases h3
        | none => exact ⟨_, set_new validName m k0 n0 hv0 h1 h2⟩
    obtain ⟨m1, hm1⟩ := hset
    obtain ⟨b1, -, b3⟩ := C16_pairing validName m m1 k0 n0 hb hm1
    obtain ⟨m2, hm2⟩ := ih m1 b1 (fun p hp => hv p (List.mem_cons_of_mem _ hp))
      (fun p hp q hq => hc p (List.mem_cons_of_mem _ hp) q (List.mem_cons_of_mem _ hq))
      (by
        intro p hp k n hkn
        rcases (b3 k n).mp hkn with h | ⟨rfl, rfl⟩
        · exact hm p (List.mem_cons_of_mem _ hp) k n h
        · exact hc p (List.mem_cons_of_mem _ hp) (k, n) List.mem_cons_self)
    exact ⟨m2, by simp only [Mapping.load, hm1, hm2]⟩

example : (Mapping.new (fun _ => true) [((1 : Int), "a"), (2, "b")] [("c", 3), ("a", 1)]).toOption.isSome
    = true := by decide

/-- C16 is false when a refused pairing is kept in use: the first direction has already been
stored (mapping.py 68–69) when the second is found inconsistent (80–82). -/
theorem C16_refused_pairing_fails :
    let m : Mapping Int := (Mapping.empty.load (fun _ => true) [(1, "a")]).1
    let r := m.load (fun _ => true) [(2, "a")]
    r.2 = .error .assertion ∧ r.1.nameOf (.id 2) = some "a" ∧ r.1.identifier (.name "a") = some 1 := by
  decide

/-- C16. The boolean registry: a refused registration changes nothing, an accepted one adds
exactly the pair, and the mapping stays a bijection. -/
theorem C16_boolean_register (validName : String → Bool) (m : Mapping K) (n : String) (v : K)
    (hb : Spec.Bij m) :
    Spec.Bij (m.register validName n v).1
    ∧ ((m.register validName n v).2 = false → (m.register validName n v).1 = m)
    ∧ ((m.register validName n v).2 = true →
        ∀ k' n', (m.register validName n v).1.nameOf (.id k') = some n' ↔
          (m.nameOf (.id k') = some n' ∨ (k' = v ∧ n' = n)))
    ∧ ((m.register validName n v).2 = true ↔
        (validName n = true ∧ m.identifier (.name n) = none ∧ m.nameOf (.id v) = none)) := by
  unfold Mapping.register
  by_cases hv : validName n = true
  · cases h2 : dget m.reverse n with
    | some c => simp [hv, h2, hb, Mapping.identifier]
    | none =>
      cases h1 : dget m.mapping v with
      | some c => simp [hv, h1, hb, Mapping.nameOf]
      | none =>
        have hs := set_new validName m v n hv h1 h2
        obtain ⟨b1, -, b3⟩ := C16_pairing validName m _ v n hb hs
        simp only [hv, Bool.not_true, Option.isSome_none, Bool.or_false, Bool.false_eq_true, if_false,
          Mapping.identifier, Mapping.nameOf, h1, h2]
        refine ⟨b1, fun h => (by cases h), fun _ => b3, ⟨fun _ => ⟨trivial, trivial, trivial⟩, fun _ => trivial⟩⟩
  · simp [hv, hb]

/-! ### C17 -/

/-- The search loop ends at the first identifier, from the current one upwards, not in use. -/
theorem nextFree_spec (mapping : List (Int × String)) (fuel : Nat) (c : Int)
    (hf : (mapping.filter (fun p => decide (c ≤ p.1))).length ≤ fuel) :
    dget mapping (nextFree mapping fuel c) = none ∧ c ≤ nextFree mapping fuel c
    ∧ ∀ i, c ≤ i → i < nextFree mapping fuel c → (dget mapping i).isSome = true := by
  induction fuel generalizing c with
  | zero =>
    have h0 : mapping.filter (fun p => decide (c ≤ p.1)) = [] := List.length_eq_zero_iff.mp (by omega)
    refine ⟨?_, Int.le_refl _, fun i h1 h2 => absurd h1 (by simp only [nextFree] at h2; omega)⟩
    cases h : dget mapping c with
    | none => simp [nextFree, h]
    | some n =>
      have := dget_mem h
      have h' : (c, n) ∈ mapping.filter (fun p => decide (c ≤ p.1)) := by
        rw [List.mem_filter]; exact ⟨this, by simp⟩
      rw [h0] at h'; cases h'
  | succ fuel ih =>
    unfold nextFree
    by_cases hs : (dget mapping c).isSome = true
    · rw [if_pos hs]
      have hlt : (mapping.filter (fun p => decide (c + 1 ≤ p.1))).length
          < (mapping.filter (fun p => decide (c ≤ p.1))).length := by
        obtain ⟨n, hn⟩ := Option.isSome_iff_exists.mp hs
        have hmem := dget_mem hn
        clear ih hf hs hn
        induction mapping with
        | nil => cases hmem
        | cons p rest ih =>
          rw [List.filter_cons, List.filter_cons]
          rcases List.mem_cons.mp hmem with h | h
          · subst h
            have h1 : ¬ (c + 1 ≤ c) := by omega
            simp only [decide_false, h1, Bool.false_eq_true, if_false, Int.le_refl, decide_true, if_true,
              List.length_cons]
            have : (rest.filter (fun p => decide (c + 1 ≤ p.1))).length
                ≤ (rest.filter (fun p => decide (c ≤ p.1))).length := by
              clear ih hmem
              induction rest with
              | nil => exact Nat.le_refl _
              | cons q rest ih =>
                rw [List.filter_cons, List.filter_cons]
                by_cases h1 : c + 1 ≤ q.1
                · have h2 : c ≤ q.1 := by omega
                  simp only [h1, h2, decide_true, if_true, List.length_cons]; omega
                · by_cases h2 : c ≤ q.1
                  · simp only [h1, h2, decide_true, decide_false, if_true, Bool.false_eq_true, if_false,
                      List.length_cons]; omega
                  · simp only [h1, h2, decide_false, Bool.false_eq_true, if_false]; exact ih
            omega
          · have := ih h
            by_cases h1 : c + 1 ≤ p.1
            · have h2 : c ≤ p.1 := by omega
              simp only [h1, h2, decide_true, if_true, List.length_cons]; omega
            · by_cases h2 : c ≤ p.1
              · simp only [h1, h2, decide_true, decide_false, if_true, Bool.false_eq_true, if_false,
                  List.length_cons]; omega
              · simp only [h1, h2, decide_false, Bool.false_eq_true, if_false]; exact this
      obtain ⟨i1, i2, i3⟩ := ih (c + 1) (by omega)
      refine ⟨i1, by omega, fun i h1 h2 => ?_⟩
      by_cases hi : i = c
      · subst hi; exact hs
      · exact i3 i (by omega) h2
    · rw [if_neg hs]
      refine ⟨?_, Int.le_refl _, fun i h1 h2 => by omega⟩
      cases h : dget mapping c with
      | none => rfl
      | some n => rw [h] at hs; exact absurd rfl hs

namespace Spec

/-- What `register_name` must do, stated with look-ups only. `pos` is the position from which
automatic identifiers are searched. -/
inductive Registers (validName : String → Bool) (m : Mapping Int) (pos : Int) (name : String) :
    Option Int → Except PyErr (Option Int) → Prop where
  /-- a known name gives its identifier again -/
  | known (i : Int) (req : Option Int) (h : m.identifier (.name name) = some i)
      (hr : req = none ∨ req = some i) : Registers validName m pos name req (.ok (some i))
  /-- a known name requested with another identifier raises -/
  | clash (i j : Int) (h : m.identifier (.name name) = some i) (hr : j ≠ i) :
      Registers validName m pos name (some j) (.error .assertion)
  /-- an unacceptable new name gives nothing -/
  | invalid (req : Option Int) (h : m.identifier (.name name) = none) (hv : validName name = false) :
      Registers validName m pos name req (.ok none)
  /-- a requested identifier in use gives nothing -/
  | inUse (j : Int) (n : String) (h : m.identifier (.name name) = none) (hv : validName name = true)
      (hj : m.nameOf (.id j) = some n) : Registers validName m pos name (some j) (.ok none)
  /-- a requested free identifier is given -/
  | given (j : Int) (h : m.identifier (.name name) = none) (hv : validName name = true)
      (hj : m.nameOf (.id j) = none) : Registers validName m pos name (some j) (.ok (some j))
  /-- without a request: the smallest free identifier from `pos` upwards -/
  | auto (i : Int) (h : m.identifier (.name name) = none) (hv : validName name = true)
      (hge : pos ≤ i) (hi : m.nameOf (.id i) = none)
      (hmin : ∀ j, pos ≤ j → j < i → m.nameOf (.id j) ≠ none) :
      Registers validName m pos name none (.ok (some i))

end Spec

theorem filter_all_le (mapping : List (Int × String)) (c : Int) :
    (mapping.filter (fun p => decide (c ≤ p.1))).length ≤ mapping.length := List.length_filter_le _ _

/-- C17. Registering a name does exactly what the specification says; it adds the returned pair
and nothing else, changes nothing when it returns nothing or raises, and the mapping stays a
bijection. -/
theorem C17_register (validName : String → Bool) (r : NameReg) (hb : Spec.Bij r.map) (name : String)
    (req : Option Int) :
    Spec.Registers validName r.map r.current name req (r.register validName name req).2
    ∧ Spec.Bij (r.register validName name req).1.map
    ∧ (∀ k n, (r.register validName name req).1.map.nameOf (.id k) = some n ↔
        (r.map.nameOf (.id k) = some n ∨
          ((r.register validName name req).2 = .ok (some k) ∧ n = name)))
    ∧ r.current ≤ (r.register validName name req).1.current
    ∧ (req = none → ∀ i, r.map.identifier (.name name) = none →
        (r.register validName name req).2 = .ok (some i) →
        (r.register validName name req).1.current = i) := by
  unfold NameReg.register
  cases hid : r.map.identifier (.name name) with
  | some curr =>
    dsimp only
    have hn := (hb curr name).mpr hid
    by_cases hr : req = none ∨ req = some curr
    · rw [if_pos hr]
      refine ⟨.known curr req hid hr, hb, fun k n => ⟨Or.inl, ?_⟩, Int.le_refl _, fun _ _ h => (by cases h)⟩
      rintro (h | ⟨h1, rfl⟩)
      · exact h
      · have : curr = k := by simpa using h1
        subst this; exact hn
    · rw [if_neg hr]
      refine ⟨?_, hb, fun k n => ⟨Or.inl, ?_⟩, Int.le_refl _, fun _ _ h => (by cases h)⟩
      · cases req with
        | none => exact absurd (Or.inl rfl) hr
        | some j => exact .clash curr j hid (fun e => hr (Or.inr (by rw [e])))
      · rintro (h | ⟨h1, -⟩)
        · exact h
        · cases h1
  | none =>
    dsimp only
    by_cases hv : validName name = true
    · rw [if_pos hv]
      cases req with
      | none =>
        dsimp only
        obtain ⟨f1, f2, f3⟩ := nextFree_spec r.map.mapping r.map.mapping.length r.current
          (filter_all_le _ _)
        generalize nextFree r.map.mapping r.map.mapping.length r.current = c at *
        rw [f1]
        simp only [Option.isSome_none, Bool.false_eq_true, if_false]
        have hs := set_new validName r.map c name hv f1 hid
        obtain ⟨b1, -, b3⟩ := C16_pairing validName r.map _ c name hb hs
        rw [hs]
        dsimp only
        refine ⟨.auto c hid hv f2 f1 (fun j h1 h2 h3 => ?_), b1, fun k n => ?_, f2, fun _ i _ h => ?_⟩
        · have := f3 j h1 h2
          simp only [Mapping.nameOf] at h3
          rw [h3] at this; cases this
        · rw [b3]
          constructor
          · rintro (h | ⟨rfl, rfl⟩)
            exacts [Or.inl h, Or.inr ⟨rfl, rfl⟩]
          · rintro (h | ⟨h, rfl⟩)
            · exact Or.inl h
            · have : c = k := by simpa using h
              exact Or.inr ⟨this.symm, rfl⟩
        · simpa using h
      | some j =>
        dsimp only
        cases hj : dget r.map.mapping j with
        | some n0 =>
          simp only [Option.isSome_some, if_true]
          refine ⟨.inUse j n0 hid hv hj, hb, fun k n => ⟨Or.inl, ?_⟩, Int.le_refl _,
            fun h => (by cases h)⟩
          rintro (h | ⟨h1, -⟩)
          · exact h
          · cases h1
        | none =>
          simp only [Option.isSome_none, Bool.false_eq_true, if_false]
          have hs := set_new validName r.map j name hv hj hid
          obtain ⟨b1, -, b3⟩ := C16_pairing validName r.map _ j name hb hs
          rw [hs]
          dsimp only
          refine ⟨.given j hid hv hj, b1, fun k n => ?_, Int.le_refl _, fun h => (by cases h)⟩
          rw [b3]
          constructor
          · rintro (h | ⟨rfl, rfl⟩)
            exacts [Or.inl h, Or.inr ⟨rfl, rfl⟩]
          · rintro (h | ⟨h, rfl⟩)
            · exact Or.inl h
            · have : j = k := by simpa using h
              exact Or.inr ⟨this.symm, rfl⟩
    · rw [if_neg hv]
      refine ⟨.invalid req hid (by simpa using hv), hb, fun k n => ⟨Or.inl, ?_⟩, Int.le_refl _,
        fun _ i _ h => (by cases h)⟩
      rintro (h | ⟨h1, -⟩)
      · exact h
      · cases h1

/-- State after a history of registrations (newest first). -/
def regAfter (validName : String → Bool) (r : NameReg) : List (String × Option Int) → NameReg
  | [] => r
  | (n, req) :: rest => ((regAfter validName r rest).register validName n req).1

/-- The pairs handed out in a history of registrations. -/
def Spec.handedOut (validName : String → Bool) (r : NameReg) :
    List (String × Option Int) → List (Int × String)
  | [] => []
  | (n, req) :: rest =>
    match ((regAfter validName r rest).register validName n req).2 with
    | .ok (some i) => (i, n) :: Spec.handedOut validName r rest
    | _ => Spec.handedOut validName r rest

/-- C17. After any history of registrations on a constructed registry — including refused and
raising ones — a name and an identifier are bound to each other exactly if they were loaded or
handed out together; no identifier has two names and no name two identifiers. -/
theorem C17_bindings (validName : String → Bool) (mapping : List (Int × String))
    (reverse : List (String × Int)) (r : NameReg) (h : NameReg.new validName mapping reverse = .ok r)
    (ops : List (String × Option Int)) :
    Spec.Bij (regAfter validName r ops).map
    ∧ ∀ k n, (regAfter validName r ops).map.nameOf (.id k) = some n ↔
        ((k, n) ∈ mapping ∨ (n, k) ∈ reverse ∨ (k, n) ∈ Spec.handedOut validName r ops) := by
  induction ops with
  | nil =>
    unfold NameReg.new at h
    cases hm : Mapping.new validName mapping reverse with
    | error e => rw [hm] at h; cases h
    | ok m =>
      rw [hm] at h
      have : r.map = m := by cases h; rfl
      simp only [regAfter, Spec.handedOut, this]
      obtain ⟨b1, b2⟩ := C16_construct validName mapping reverse m hm
      exact ⟨b1, fun k n => by rw [b2]; simp⟩
  | cons op rest ih =>
    obtain ⟨n0, req⟩ := op
    obtain ⟨-, b2, b3, -⟩ := C17_register validName _ ih.1 n0 req
    refine ⟨b2, fun k n => ?_⟩
    simp only [regAfter, Spec.handedOut]
    rw [b3, ih.2]
    cases hres : ((regAfter validName r rest).register validName n0 req).2 with
    | error e => simp
    | ok o =>
      cases o with
      | none => simp
      | some i =>
        simp only [List.mem_cons, Prod.mk.injEq, Except.ok.injEq, Option.some.injEq]
        constructor
        · rintro ((h | h | h) | ⟨rfl, rfl⟩)
          exacts [Or.inl h, Or.inr (Or.inl h), Or.inr (Or.inr (Or.inr h)), Or.inr (Or.inr (Or.inl ⟨rfl, rfl⟩))]
        · rintro (h | h | ⟨rfl, rfl⟩ | h)
          exacts [Or.inl (Or.inl h), Or.inl (Or.inr (Or.inl h)), Or.inr ⟨rfl, rfl⟩, Or.inl (Or.inr (Or.inr h))]

/-- C17. A binding never changes, whatever is registered later. -/
theorem C17_stable (validName : String → Bool) (r : NameReg) (hb : Spec.Bij r.map)
    (ops : List (String × Option Int)) (n : String) (i : Int)
    (h : r.map.identifier (.name n) = some i) :
    Spec.Bij (regAfter validName r ops).map
    ∧ (regAfter validName r ops).map.identifier (.name n) = some i := by
  induction ops with
  | nil => exact ⟨hb, h⟩
  | cons op rest ih =>
    obtain ⟨n0, req⟩ := op
    obtain ⟨-, b2, b3, -⟩ := C17_register validName _ ih.1 n0 req
    refine ⟨b2, ?_⟩
    exact (b2 i n).mp ((b3 i n).mpr (Or.inl ((ih.1 i n).mpr ih.2)))

theorem foldl_current (l : List (Int × String)) (c : Int) :
    c ≤ l.foldl (fun c p => if p.1 ≥ c then p.1 + 1 else c) c
    ∧ ∀ p ∈ l, p.1 < l.foldl (fun c p => if p.1 ≥ c then p.1 + 1 else c) c := by
  induction l generalizing c with
  | nil => exact ⟨Int.le_refl _, fun p hp => by cases hp⟩
  | cons q rest ih =>
    rw [List.foldl_cons]
    obtain ⟨h1, h2⟩ := ih (if q.1 ≥ c then q.1 + 1 else c)
    refine ⟨?_, fun p hp => ?_⟩
    · refine Int.le_trans ?_ h1
      split <;> omega
    · rcases List.mem_cons.mp hp with rfl | h
      · refine Int.lt_of_lt_of_le ?_ h1
        split <;> omega
      · exact h2 p h

/-- C17. Identifiers given automatically by a constructed registry are positive and above every
loaded identifier. -/
theorem C17_auto_above (validName : String → Bool) (mapping : List (Int × String))
    (reverse : List (String × Int)) (r : NameReg) (h : NameReg.new validName mapping reverse = .ok r) :
    1 ≤ r.current ∧ ∀ k n, r.map.nameOf (.id k) = some n → k < r.current := by
  unfold NameReg.new at h
  cases hm : Mapping.new validName mapping reverse with
  | error e => rw [hm] at h; cases h
  | ok m =>
    rw [hm] at h
    cases h
    obtain ⟨h1, h2⟩ := foldl_current m.mapping 1
    exact ⟨h1, fun k n hk => h2 (k, n) (dget_mem hk)⟩

/-- C17. Automatic identifiers grow: one given later is larger than one given earlier, whatever
happens in between. -/
theorem C17_auto_increasing (validName : String → Bool) (r : NameReg) (hb : Spec.Bij r.map)
    (n : String) (i : Int) (hn : r.map.identifier (.name n) = none)
    (h1 : (r.register validName n none).2 = .ok (some i))
    (ops : List (String × Option Int)) (n' : String) (i' : Int)
    (hn' : (regAfter validName (r.register validName n none).1 ops).map.identifier (.name n') = none)
    (h2 : ((regAfter validName (r.register validName n none).1 ops).register validName n' none).2
      = .ok (some i')) : i < i' := by
  obtain ⟨-, b2, b3, -, b5⟩ := C17_register validName r hb n none
  have hcur := b5 rfl i hn h1
  have hi : (r.register validName n none).1.map.identifier (.name n) = some i :=
    (b2 i n).mp ((b3 i n).mpr (Or.inr ⟨h1, rfl⟩))
  generalize hr1 : (r.register validName n none).1 = r1 at *
  have hle : ∀ ops, i ≤ (regAfter validName r1 ops).current := by
    intro ops
    induction ops with
    | nil => rw [← hcur]; exact Int.le_refl _
    | cons op rest ih =>
      have hb' := (C17_stable validName r1 b2 rest n i hi).1
      exact Int.le_trans ih (C17_register validName _ hb' op.1 op.2).2.2.2.1
  obtain ⟨hb', hst⟩ := C17_stable validName r1 b2 ops n i hi
  obtain ⟨s1, -⟩ := C17_register validName _ hb' n' none
  rw [h2] at s1
  have hlo := hle ops
  cases s1 with
  | known _ _ h hr => rw [hn'] at h; cases h
  | auto _ h hv hge hfree hmin =>
    have : i ≠ i' := by
      rintro rfl
      rw [(hb' i n).mpr hst] at hfree; cases hfree
    omega

example : (NameReg.new (fun _ => true) [(3, "a")] []).toOption.map
    (fun r => ((r.register (fun _ => true) "b" none).2, (r.register (fun _ => true) "b" (some 1)).2,
      (r.register (fun _ => true) "a" (some 4)).2))
    = some (.ok (some 4), .ok (some 1), .error .assertion) := by decide

/-! ### C18 -/

section Reg

variable {α : Type} (validName : String → Bool) (idOf : α → Int)

/-- Consistency of a registry: the names are a bijection and an item's name is bound to its
identifier. -/
structure RegOk (r : Reg α) : Prop where
  bij : Spec.Bij r.names.map
  ids : ∀ n x, dget r.items n = some x → r.names.map.identifier (.name n) = some (idOf x)

/-- Uses of a registry. -/
inductive ROp (α : Type) where
  | register (name : String) (item : α)
  | dict (name : String) (given : Option Int) (make : Int → Except PyErr α)
  | nameOnly (name : String) (req : Option Int)

/-- Result of a use: the item that was added, nothing, or an exception. -/
abbrev ROut (α : Type) := Except PyErr (Option α)

/-- One use. `nameOnly` is `registry.names.register_name`. -/
def rstep (r : Reg α) : ROp α → Reg α × ROut α
  | .register n x =>
    match r.register validName idOf n x with
    | (r, .ok true) => (r, .ok (some x))
    | (r, .ok false) => (r, .ok none)
    | (r, .error e) => (r, .error e)
  | .dict n g mk => r.registerDict validName idOf n g mk
  | .nameOnly n req =>
    let (names, _) := r.names.register validName n req
    ({ r with names := names }, .ok none)

theorem RegOk.names {r : Reg α} (h : RegOk idOf r) (name : String) (req : Option Int) :
    RegOk idOf { r with names := (r.names.register validName name req).1 } := by
  obtain ⟨-, b2, b3, -⟩ := C17_register validName r.names h.bij name req
  refine ⟨b2, fun n x hx => ?_⟩
  exact (b2 _ n).mp ((b3 _ n).mpr (Or.inl ((h.bij _ n).mpr (h.ids n x hx))))

theorem nameOf_name {m : Mapping Int} {n : String} {i : Int} (h : m.identifier (.name n) = some i) :
    m.nameOf (.name n) = some n := by
  simp only [Mapping.identifier] at h
  simp [Mapping.nameOf, h]

/-- What `Registry.register` does to a consistent registry. -/
theorem register_spec (r : Reg α) (h : RegOk idOf r) (name : String) (x : α) :
    RegOk idOf (r.register validName idOf name x).1
    ∧ (∀ n y, dget (r.register validName idOf name x).1.items n = some y ↔
        (dget r.items n = some y ∨ ((r.register validName idOf name x).2 = .ok true ∧ n = name ∧ y = x)))
    ∧ ((r.register validName idOf name x).2 = .ok true ↔
        (dget r.items name = none ∧ (r.names.map.identifier (.name name) = some (idOf x) ∨
          (r.names.map.identifier (.name name) = none ∧ validName name = true
            ∧ r.names.map.nameOf (.id (idOf x)) = none)))) := by
  obtain ⟨s1, b2, b3, -⟩ := C17_register validName r.names h.bij name (some (idOf x))
  have hnm := RegOk.names validName idOf h name (some (idOf x))
  unfold Reg.register
  cases hres : r.names.register validName name (some (idOf x)) with
  | mk n' res =>
    rw [hres] at s1 b2 b3 hnm
    dsimp only at s1 b2 b3 hnm
    cases res with
    | error e =>
      dsimp only
      refine ⟨hnm, fun n y => ⟨Or.inl, ?_⟩, ?_⟩
      · rintro (h | ⟨h, -⟩)
        · exact h
        · cases h
      · refine ⟨fun h => (by cases h), ?_⟩
        rintro ⟨-, h'⟩
        cases s1 with
        | clash i _ hi hne =>
          rw [hi] at h'
          rcases h' with h' | ⟨h', -⟩
          · exact absurd (Option.some.inj h').symm hne
          · cases h'
    | ok o =>
      dsimp only
      cases o with
      | none =>
        simp only [Option.isSome_none, Bool.false_and, Bool.false_eq_true, if_false]
        refine ⟨hnm, fun n y => ⟨Or.inl, ?_⟩, ?_⟩
        · rintro (h | ⟨h, -⟩)
          · exact h
          · cases h
        · refine ⟨fun h => (by cases h), ?_⟩
          rintro ⟨-, h'⟩
          cases s1 with
          | invalid _ hi hv =>
            rw [hi, hv] at h'
            rcases h' with h' | ⟨-, h', -⟩ <;> cases h'
          | inUse _ n0 hi hv hj =>
            rw [hi, hj] at h'
            rcases h' with h' | ⟨-, -, h'⟩ <;> cases h'
      | some i =>
        have hpair : n'.map.nameOf (.id i) = some name := (b3 i name).mpr (Or.inr ⟨rfl, rfl⟩)
        have hi : i = idOf x := by
          cases s1 with
          | known _ _ _ hr => rcases hr with hr | hr <;> simp_all
          | given _ _ _ _ => rfl
        have hcond : (r.names.map.identifier (.name name) = some (idOf x) ∨
          (r.names.map.identifier (.name name) = none ∧ validName name = true
            ∧ r.names.map.nameOf (.id (idOf x)) = none)) := by
          cases s1 with
          | known _ _ hk hr => rw [hi] at hk; exact Or.inl hk
          | given _ h1 h2 h3 => exact Or.inr ⟨h1, h2, h3⟩
        cases hit : dget r.items name with
        | some y0 =>
          simp only [Option.isSome_some, Option.isNone_some, Bool.and_false, Bool.false_eq_true, if_false]
          refine ⟨hnm, fun n y => ⟨Or.inl, ?_⟩, ⟨fun h => (by cases h), fun h => by cases h.1⟩⟩
          rintro (h | ⟨h, -⟩)
          · exact h
          · cases h
        | none =>
          simp only [Option.isSome_some, Option.isNone_none, Bool.and_self, if_true]
          refine ⟨⟨b2, fun n y hy => ?_⟩, fun n y => ?_, ⟨fun _ => ⟨trivial, hcond⟩, fun _ => trivial⟩⟩
          · dsimp only at hy ⊢
            rw [dget_dset] at hy
            by_cases hn : name = n
            · subst hn
              rw [if_pos rfl] at hy
              cases hy
              rw [← hi]; exact (b2 i name).mp hpair
            · rw [if_neg hn] at hy
              exact hnm.ids n y hy
          · skip
            rw [dget_dset]
            by_cases hn : name = n
            · subst hn
              rw [if_pos rfl, hit]
              simp [eq_comm]
            · rw [if_neg hn]
              refine ⟨Or.inl, ?_⟩
              rintro (h | ⟨-, h, -⟩)
              · exact h
              · exact absurd h.symm hn

/-- One use of a consistent registry: it stays consistent, and its items are the old ones plus
exactly the item reported as added. -/
theorem rstep_spec (r : Reg α) (h : RegOk idOf r) (op : ROp α) :
    RegOk idOf (rstep validName idOf r op).1
    ∧ (∀ n y, dget r.items n = some y → dget (rstep validName idOf r op).1.items n = some y)
    ∧ (∀ y, (rstep validName idOf r op).2 = .ok (some y) →
        ∃ n, dget r.items n = none ∧
          (∀ m z, dget (rstep validName idOf r op).1.items m = some z ↔
            (dget r.items m = some z ∨ (m = n ∧ z = y))))
    ∧ (∀ res, (rstep validName idOf r op).2 = res → (∀ y, res ≠ .ok (some y)) →
        ∀ m z, dget (rstep validName idOf r op).1.items m = some z ↔ dget r.items m = some z) := by
  cases op with
  | register n x =>
    obtain ⟨a1, a2, a3⟩ := register_spec validName idOf r h n x
    simp only [rstep]
    cases hreg : r.register validName idOf n x with
    | mk r' res =>
      rw [hreg] at a1 a2 a3
      dsimp only at a1 a2 a3
      cases res with
      | error e =>
        refine ⟨a1, fun m y hy => (a2 m y).mpr (Or.inl hy), fun y hy => (by cases hy), fun _ _ _ m z => ?_⟩
        rw [a2]; simp
      | ok b =>
        cases b with
        | false =>
          refine ⟨a1, fun m y hy => (a2 m y).mpr (Or.inl hy), fun y hy => (by cases hy), fun _ _ _ m z => ?_⟩
          rw [a2]; simp
        | true =>
          refine ⟨a1, fun m y hy => (a2 m y).mpr (Or.inl hy), fun y hy => ?_, fun res hr hne => ?_⟩
          · have : x = y := by simpa using hy
            subst this
            refine ⟨n, (a3.mp rfl).1, fun m z => ?_⟩
            rw [a2]; simp
          · subst hr; exact absurd rfl (hne x)
  | dict n g mk =>
    simp only [rstep, Reg.registerDict]
    cases g with
    | some i =>
      dsimp only
      cases mk i with
      | error e =>
        exact ⟨h, fun _ _ h => h, fun y hy => (by cases hy), fun _ _ _ m z => Iff.rfl⟩
      | ok x =>
        dsimp only
        obtain ⟨a1, a2, a3⟩ := register_spec validName idOf r h n x
        cases hreg : r.register validName idOf n x with
        | mk r' res =>
          rw [hreg] at a1 a2 a3
          dsimp only at a1 a2 a3
          cases res with
          | error e =>
            refine ⟨a1, fun m y hy => (a2 m y).mpr (Or.inl hy), fun y hy => (by cases hy), fun _ _ _ m z => ?_⟩
            rw [a2]; simp
          | ok b =>
            cases b with
            | false =>
              refine ⟨a1, fun m y hy => (a2 m y).mpr (Or.inl hy), fun y hy => (by cases hy), fun _ _ _ m z => ?_⟩
              rw [a2]; simp
            | true =>
              refine ⟨a1, fun m y hy => (a2 m y).mpr (Or.inl hy), fun y hy => ?_, fun res hr hne => ?_⟩
              · have : x = y := by simpa using hy
                subst this
                refine ⟨n, (a3.mp rfl).1, fun m z => ?_⟩
                rw [a2]; simp
              · subst hr; exact absurd rfl (hne x)
    | none =>
      dsimp only
      have hnm := RegOk.names validName idOf h n none
      cases hres : r.names.register validName n none with
      | mk n' res =>
        rw [hres] at hnm
        dsimp only at hnm ⊢
        cases res with
        | error e =>
          exact ⟨hnm, fun _ _ h => h, fun y hy => (by cases hy), fun _ _ _ m z => Iff.rfl⟩
        | ok o =>
          cases o with
          | none =>
            exact ⟨hnm, fun _ _ h => h, fun y hy => (by cases hy), fun _ _ _ m z => Iff.rfl⟩
          | some i =>
            dsimp only
            cases mk i with
            | error e =>
              exact ⟨hnm, fun _ _ h => h, fun y hy => (by cases hy), fun _ _ _ m z => Iff.rfl⟩
            | ok x =>
              dsimp only
              obtain ⟨a1, a2, a3⟩ := register_spec validName idOf _ hnm n x
              dsimp only at a2 a3
              cases hreg : Reg.register validName idOf { r with names := n' } n x with
              | mk r' res =>
                rw [hreg] at a1 a2 a3
                dsimp only at a1 a2 a3
                cases res with
                | error e =>
                  refine ⟨a1, fun m y hy => (a2 m y).mpr (Or.inl hy), fun y hy => (by cases hy), fun _ _ _ m z => ?_⟩
                  rw [a2]; simp
                | ok b =>
                  cases b with
                  | false =>
                    refine ⟨a1, fun m y hy => (a2 m y).mpr (Or.inl hy), fun y hy => (by cases hy), fun _ _ _ m z => ?_⟩
                    rw [a2]; simp
                  | true =>
                    refine ⟨a1, fun m y hy => (a2 m y).mpr (Or.inl hy), fun y hy => ?_, fun res hr hne => ?_⟩
                    · have : x = y := by simpa using hy
                      subst this
                      refine ⟨n, (a3.mp rfl).1, fun m z => ?_⟩
                      rw [a2]; simp
                    · subst hr; exact absurd rfl (hne x)
  | nameOnly n req =>
    exact ⟨RegOk.names validName idOf h n req, fun _ _ h => h, fun y hy => (by cases hy),
      fun _ _ _ m z => Iff.rfl⟩

/-- State after a history of uses (newest first). -/
def rAfter (r : Reg α) : List (ROp α) → Reg α
  | [] => r
  | op :: rest => (rstep validName idOf (rAfter r rest) op).1

theorem rAfter_ok (r : Reg α) (h : RegOk idOf r) (ops : List (ROp α)) :
    RegOk idOf (rAfter validName idOf r ops) := by
  induction ops with
  | nil => exact h
  | cons op rest ih => exact (rstep_spec validName idOf _ ih op).1

theorem get_name (r : Reg α) (h : RegOk idOf r) (n : String) :
    r.get (.name n) = dget r.items n := by
  unfold Reg.get
  cases hi : dget r.items n with
  | none =>
    cases hn : r.names.map.nameOf (.name n) with
    | none => rfl
    | some m =>
      have : m = n := by
        simp only [Mapping.nameOf] at hn
        split at hn
        · exact (Option.some.inj hn).symm
        · cases hn
      subst this; exact hi
  | some x => rw [nameOf_name (h.ids n x hi)]; exact hi

/-- A registry whose creation succeeded is consistent and contains the given items (for a later
duplicate of a name, the later item). -/
theorem C18_create (items : List (String × α)) (r : Reg α)
    (h : Reg.new validName idOf items = .ok r) :
    RegOk idOf r ∧ r.items = items.foldl (fun d p => dset d p.1 p.2) [] := by
  unfold Reg.new at h
  dsimp only at h
  generalize items.foldl (fun d p => dset d p.1 p.2) [] = its at *
  cases hn : NameReg.new validName [] (its.map (fun p => (p.1, idOf p.2))) with
  | error e => rw [hn] at h; cases h
  | ok n =>
    rw [hn] at h
    cases h
    obtain ⟨b1, b2⟩ := C17_bindings validName [] _ n hn []
    refine ⟨⟨b1, fun m x hx => ?_⟩, rfl⟩
    refine (b1 _ m).mp ((b2 _ m).mpr (Or.inr (Or.inl ?_)))
    exact List.mem_map.mpr ⟨(m, x), dget_mem hx, rfl⟩

/-- C18. After any history of registrations (by item, by data, of bare names; refused and
failing ones included) on a created registry: an item found under a name is found under its
identifier too, an item found under an identifier has that identifier and is found under its
name, and no two names hold items with the same identifier. -/
theorem C18_lookups_agree (items : List (String × α)) (r : Reg α)
    (h : Reg.new validName idOf items = .ok r) (ops : List (ROp α)) :
    (∀ n x, (rAfter validName idOf r ops).get (.name n) = some x →
      (rAfter validName idOf r ops).get (.id (idOf x)) = some x)
    ∧ (∀ i x, (rAfter validName idOf r ops).get (.id i) = some x →
      idOf x = i ∧ ∃ n, (rAfter validName idOf r ops).get (.name n) = some x)
    ∧ (∀ n m x y, (rAfter validName idOf r ops).get (.name n) = some x →
      (rAfter validName idOf r ops).get (.name m) = some y → idOf x = idOf y → n = m) := by
  have hok := rAfter_ok validName idOf r (C18_create validName idOf items r h).1 ops
  generalize rAfter validName idOf r ops = s at *
  have g1 : ∀ n x, s.get (.name n) = some x → s.names.map.nameOf (.id (idOf x)) = some n := by
    intro n x hx
    rw [get_name idOf s hok] at hx
    exact (hok.bij _ n).mpr (hok.ids n x hx)
  refine ⟨?_, ?_, ?_⟩
  · intro n x hx
    have := g1 n x hx
    rw [get_name idOf s hok] at hx
    simp only [Reg.get, this, hx]
  · intro i x hx
    unfold Reg.get at hx
    cases hn : s.names.map.nameOf (.id i) with
    | none => rw [hn] at hx; cases hx
    | some n =>
      rw [hn] at hx
      dsimp only at hx
      have h1 := hok.ids n x hx
      have h2 := (hok.bij i n).mp hn
      rw [h1] at h2
      exact ⟨Option.some.inj h2, n, by rw [get_name idOf s hok]; exact hx⟩
  · intro n m x y hx hy he
    have h1 := g1 n x hx
    have h2 := g1 m y hy
    rw [he] at h1
    rw [h1] at h2
    exact Option.some.inj h2

/-- C18. Nothing that follows disturbs a registered item: every key that found it still does. -/
theorem C18_items_stay (r : Reg α) (h : RegOk idOf r) (ops : List (ROp α)) (key : Key Int) (x : α)
    (hx : r.get key = some x) : (rAfter validName idOf r ops).get key = some x := by
  have hstay : ∀ n, dget r.items n = some x → dget (rAfter validName idOf r ops).items n = some x := by
    intro n hn
    induction ops with
    | nil => exact hn
    | cons op rest ih => exact (rstep_spec validName idOf _ (rAfter_ok validName idOf r h rest) op).2.1 n x ih
  have hok := rAfter_ok validName idOf r h ops
  cases key with
  | name n =>
    rw [get_name idOf r h] at hx
    rw [get_name idOf _ hok]
    exact hstay n hx
  | id i =>
    unfold Reg.get at hx
    cases hn : r.names.map.nameOf (.id i) with
    | none => rw [hn] at hx; cases hx
    | some n =>
      rw [hn] at hx
      have h1 := hok.ids n x (hstay n hx)
      have h2 := h.ids n x hx
      have h3 := (h.bij i n).mp hn
      rw [h2] at h3
      have : idOf x = i := Option.some.inj h3
      rw [this] at h1
      simp only [Reg.get, (hok.bij i n).mpr h1, hstay n hx]

/-- C18. When a registration reports success, the new item is found and nothing else changes;
when it reports nothing or raises, no look-up by name changes. -/
theorem C18_report (r : Reg α) (h : RegOk idOf r) (op : ROp α) :
    (∀ y, (rstep validName idOf r op).2 = .ok (some y) → ∃ n, r.get (.name n) = none ∧
      ∀ m z, (rstep validName idOf r op).1.get (.name m) = some z ↔
        (r.get (.name m) = some z ∨ (m = n ∧ z = y)))
    ∧ (∀ res, (rstep validName idOf r op).2 = res → (∀ y, res ≠ .ok (some y)) →
      ∀ m, (rstep validName idOf r op).1.get (.name m) = r.get (.name m)) := by
  obtain ⟨a1, a2, a3, a4⟩ := rstep_spec validName idOf r h op
  refine ⟨fun y hy => ?_, fun res hr hne m => ?_⟩
  · obtain ⟨n, h1, h2⟩ := a3 y hy
    refine ⟨n, by rw [get_name idOf r h]; exact h1, fun m z => ?_⟩
    rw [get_name idOf _ a1, get_name idOf r h]; exact h2 m z
  · rw [get_name idOf _ a1, get_name idOf r h]
    have := a4 res hr hne m
    cases hd : dget r.items m with
    | some z => exact (this z).mpr hd
    | none =>
      cases hd' : dget (rstep validName idOf r op).1.items m with
      | none => rfl
      | some z => rw [(this z).mp hd'] at hd; cases hd

/-- C18. Registering an item by name succeeds exactly if the name has no item yet and either the
name is already bound to the item's identifier, or the name is new and acceptable and the
identifier is free. -/
theorem C18_accepts (r : Reg α) (h : RegOk idOf r) (name : String) (x : α) :
    (rstep validName idOf r (.register name x)).2 = .ok (some x) ↔
      (r.get (.name name) = none ∧ (r.names.map.identifier (.name name) = some (idOf x) ∨
        (r.names.map.identifier (.name name) = none ∧ validName name = true
          ∧ r.names.map.nameOf (.id (idOf x)) = none))) := by
  obtain ⟨a1, a2, a3⟩ := register_spec validName idOf r h name x
  rw [get_name idOf r h, ← a3]
  simp only [rstep]
  cases hreg : r.register validName idOf name x with
  | mk r' res =>
    cases res with
    | error e => simp
    | ok b => cases b <;> simp

end Reg

/-- Creation from data registers the name before the item exists (registry/__init__.py 84–90),
so a creation that raises leaves the name bound to an identifier without an item. -/
theorem C18_failed_creation_leaks_fails :
    let r : Reg Int := ⟨[], ⟨Mapping.empty, 1⟩⟩
    let r' := (r.registerDict (fun _ => true) id "a" none (fun _ => .error .value)).1
    r'.get (.name "a") = none ∧ r'.names.map.identifier (.name "a") = some 1
    ∧ (r'.register (fun _ => true) id "a" 5).2 = .error .assertion := by
  decide

example : ∃ r : Reg Int, Reg.new (fun _ => true) id [("a", 1), ("b", 7)] = .ok r
    ∧ (rAfter (fun _ => true) id r [.dict "c" none (fun i => .ok i), .register "d" 7]).get (.name "c")
      = some 8 := ⟨_, rfl, by decide⟩

/-! ### C19 -/

/-- C19. Integer enumerations: for every member the conversions invert each other; a value that
is no member is rejected; a name that is no member is rejected by `get_str`, and by `get_int`
unless it is the decimal form of a member's value. -/
theorem C19_integer (parseInt : String → Option Int) (m : Mapping Int) (hb : Spec.Bij m) :
    (∀ n v, m.identifier (.name n) = some v →
      getInt parseInt m (.name n) = .ok v ∧ getStr m (.id v) = .ok n
      ∧ getInt parseInt m (.id v) = .ok v ∧ getStr m (.name n) = .ok n)
    ∧ (∀ v, (∀ n, m.identifier (.name n) ≠ some v) →
      getInt parseInt m (.id v) = .error .key ∧ getStr m (.id v) = .error .key)
    ∧ (∀ n, m.identifier (.name n) = none →
      getStr m (.name n) = .error .key
      ∧ (∀ v, getInt parseInt m (.name n) = .ok v ↔
          (parseInt n = some v ∧ ∃ n', m.identifier (.name n') = some v))
      ∧ ((∀ v, parseInt n = some v → ∀ n', m.identifier (.name n') ≠ some v) →
          getInt parseInt m (.name n) = .error .key)) := by
  have hnone : ∀ v, (∀ n, m.identifier (.name n) ≠ some v) → dget m.mapping v = none := by
    intro v hv
    cases hd : dget m.mapping v with
    | none => rfl
    | some n => exact absurd ((hb v n).mp hd) (hv n)
  have hsome : ∀ v, (∃ n, m.identifier (.name n) = some v) → ∃ n, dget m.mapping v = some n := by
    rintro v ⟨n, hn⟩
    exact ⟨n, (hb v n).mpr hn⟩
  refine ⟨fun n v h => ?_, fun v hv => ?_, fun n hn => ?_⟩
  · have h1 := (hb v n).mpr h
    simp only [Mapping.nameOf] at h1
    refine ⟨?_, ?_, ?_, ?_⟩
    · simp [getInt, asInt, h]
    · simp [getStr, Mapping.nameOf, h1]
    · simp [getInt, asInt, Mapping.identifier, h1]
    · simp only [Mapping.identifier] at h
      simp [getStr, Mapping.nameOf, h]
  · have h1 := hnone v hv
    simp [getInt, asInt, getStr, Mapping.identifier, Mapping.nameOf, h1]
  · have hn' := hn
    simp only [Mapping.identifier] at hn'
    refine ⟨by simp [getStr, Mapping.nameOf, hn'], fun v => ?_, fun hv => ?_⟩
    · simp only [getInt, asInt, hn]
      cases hp : parseInt n with
      | none => simp
      | some w =>
        simp only [Option.bind_some, Mapping.identifier]
        cases hd : dget m.mapping w with
        | none =>
          simp only [Option.isSome_none, Bool.false_eq_true, if_false]
          constructor
          · intro h; cases h
          · rintro ⟨h1, h2⟩
            obtain ⟨n', h3⟩ := hsome v h2
            have : w = v := Option.some.inj h1
            subst this; rw [hd] at h3; cases h3
        | some n0 =>
          simp only [Option.isSome_some, if_true, Except.ok.injEq, Option.some.injEq]
          constructor
          · rintro rfl
            exact ⟨rfl, n0, (hb w n0).mp hd⟩
          · rintro ⟨h, -⟩; exact h
    · simp only [getInt, asInt, hn]
      cases hp : parseInt n with
      | none => simp
      | some w =>
        have h1 := hnone w (hv w hp)
        simp [Mapping.identifier, h1]

/-- C19. Boolean enumerations: for every member the conversions invert each other; a value that
is no member is rejected; a name that is no member is rejected by `get_str`. -/
theorem C19_boolean_partial (parseBool : String → Option Bool) (m : Mapping Bool) (hb : Spec.Bij m) :
    (∀ n v, m.identifier (.name n) = some v →
      getBool parseBool m (.name n) = .ok v ∧ getStr m (.id v) = .ok n
      ∧ getBool parseBool m (.id v) = .ok v ∧ getStr m (.name n) = .ok n)
    ∧ (∀ v, (∀ n, m.identifier (.name n) ≠ some v) →
      getBool parseBool m (.id v) = .error .key ∧ getStr m (.id v) = .error .key)
    ∧ (∀ n, m.identifier (.name n) = none → getStr m (.name n) = .error .key
      ∧ (parseBool n = none → getBool parseBool m (.name n) = .error .key)) := by
  refine ⟨fun n v h => ?_, fun v hv => ?_, fun n hn => ?_⟩
  · have h1 := (hb v n).mpr h
    simp only [Mapping.nameOf] at h1
    refine ⟨?_, ?_, ?_, ?_⟩
    · simp [getBool, asBool, h]
    · simp [getStr, Mapping.nameOf, h1]
    · simp [getBool, asBool, Mapping.identifier, h1]
    · simp only [Mapping.identifier] at h
      simp [getStr, Mapping.nameOf, h]
  · have h1 : dget m.mapping v = none := by
      cases hd : dget m.mapping v with
      | none => rfl
      | some n => exact absurd ((hb v n).mp hd) (hv n)
    simp [getBool, asBool, getStr, Mapping.identifier, Mapping.nameOf, h1]
  · have hn' := hn
    simp only [Mapping.identifier] at hn'
    refine ⟨by simp [getStr, Mapping.nameOf, hn'], fun hp => ?_⟩
    simp [getBool, asBool, hn, hp]

/-- A boolean enumeration also accepts the general boolean words, even for a value that is not
a member (enum/__init__.py 142–146). -/
theorem C19_boolean_words_fails :
    let parse := fun s => if s = "true" then some true else none
    let m : Mapping Bool := ((Mapping.empty : Mapping Bool).register (fun _ => true) "off" false).1
    getBool parse m (.name "true") = .ok true ∧ getBool parse m (.id true) = .error .key
    ∧ getStr m (.id true) = .error .key := by
  decide

/-- C19. The members of an enumeration: those of the data it was created from and those
registered since; each is found in both directions (so the hypotheses of `C19_integer` hold in
every reachable state). -/
theorem C19_members (validName : String → Bool) (data : List (String × Int ⊕ Int × String))
    (r : NameReg) (h : NameReg.new validName (split data).1 (split data).2 = .ok r)
    (ops : List (String × Option Int)) :
    Spec.Bij (regAfter validName r ops).map
    ∧ ∀ n v, (regAfter validName r ops).map.identifier (.name n) = some v ↔
        (.inl (n, v) ∈ data ∨ .inr (v, n) ∈ data ∨ (v, n) ∈ Spec.handedOut validName r ops) := by
  obtain ⟨b1, b2⟩ := C17_bindings validName _ _ r h ops
  refine ⟨b1, fun n v => ?_⟩
  rw [← b1 v n, b2]
  have hs : ∀ data : List (String × Int ⊕ Int × String),
      ((v, n) ∈ (split data).1 ↔ .inr (v, n) ∈ data) ∧ ((n, v) ∈ (split data).2 ↔ .inl (n, v) ∈ data) := by
    intro data
    induction data with
    | nil => simp [split]
    | cons d rest ih =>
      cases d with
      | inl p => simp [split, ih.1, ih.2]
      | inr p => simp [split, ih.1, ih.2]
  rw [(hs data).1, (hs data).2]
  constructor
  · rintro (h | h | h)
    exacts [Or.inr (Or.inl h), Or.inl h, Or.inr (Or.inr h)]
  · rintro (h | h | h)
    exacts [Or.inr (Or.inl h), Or.inl h, Or.inr (Or.inr h)]

example : ∃ r, NameReg.new (fun _ => true) (split [.inl ("a", (1 : Int)), .inr (2, "b")]).1
    (split [.inl ("a", (1 : Int)), .inr (2, "b")]).2 = .ok r
    ∧ getInt (fun s => if s = "2" then some 2 else none) r.map (.name "2") = .ok 2
    ∧ (r.register (fun _ => true) "c" none).2 = .ok (some 3) := ⟨_, rfl, by decide, by decide⟩

end Verif.Registry
