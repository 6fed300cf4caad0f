import Verif.Prim.Model
import Verif.Wire.Props
/-!
C03–C06 and C63: integer storage, change callbacks, identifiers, time stamps.
-/
namespace Verif.Prim

open Verif.Wire

set_option linter.unusedSectionVars false

variable {V : Type} [DecidableEq V]

namespace Spec

/-- How many registrations a history contains. -/
def regCount : List (Op V) → Nat
  | [] => 0
  | .register _ :: h => regCount h + 1
  | _ :: h => regCount h

/-- The stored value after a history (newest first), given the initial one. -/
def value (store : V → V) (v0 : V) : List (Op V) → V
  | [] => v0
  | .set v _ :: _ => store v
  | _ :: h => value store v0 h

/-- Callback `i` is live after history `h` (newest first), with the given one-shot flag:
it was the `i`-th registration, it has not been removed since, and, if one-shot, no set
since then requested a value different from the value stored at that moment. -/
def Live (store : V → V) (v0 : V) (h : List (Op V)) (i : Nat) (once : Bool) : Prop :=
  ∃ later earlier, h = later ++ .register once :: earlier ∧ regCount earlier = i ∧
    Op.remove i ∉ later ∧
    (once = true → ∀ newer v now older, later = newer ++ .set v now :: older →
      v = value store v0 (older ++ .register once :: earlier))

end Spec

/-! ### Lemmas -/

theorem serviceLoop_ok (old new : V) (l : List (Nat × Bool)) :
    serviceLoop (fun _ => false) old new l =
      (l.map (fun p => ⟨p.1, old, new⟩), (l.filter (·.2)).map (·.1), false) := by
  induction l with
  | nil => rfl
  | cons p l ih =>
    obtain ⟨i, once⟩ := p
    cases once <;> simp [serviceLoop, ih]

theorem remove_callbacks (c : Cell V) (i : Nat) :
    (c.remove i).1 = { c with callbacks := c.callbacks.filter (·.1 != i) } := by
  unfold Cell.remove
  split
  · rfl
  · rename_i h
    have : c.callbacks.filter (·.1 != i) = c.callbacks := by
      rw [List.filter_eq_self]
      intro p hp
      simp only [bne_iff_ne, ne_eq]
      intro e
      exact h (List.any_eq_true.2 ⟨p, hp, by simp [e]⟩)
    rw [this]

theorem foldl_remove (rm : List Nat) (c : Cell V) :
    rm.foldl (fun c i => (c.remove i).1) c =
      { c with callbacks := c.callbacks.filter (fun p => !rm.contains p.1) } := by
  induction rm generalizing c with
  | nil =>
    have : c.callbacks.filter (fun _ => true) = c.callbacks := by simp
    simp [this]
  | cons i rm ih =>
    rw [List.foldl_cons, ih, remove_callbacks]
    simp only [List.filter_filter]
    congr 1
    apply List.filter_congr
    intro p _
    simp only [List.contains_cons, Bool.not_or]
    rw [Bool.and_comm]
    rfl

/-- Callback table is a strictly increasing list of identifiers below the next one. -/
def Ordered (c : Cell V) : Prop :=
  c.callbacks.Pairwise (fun a b => a.1 < b.1) ∧ ∀ p ∈ c.callbacks, p.1 < c.curr

theorem pairwise_fst_inj {l : List (Nat × Bool)} (h : l.Pairwise (fun a b => a.1 < b.1))
    {p q : Nat × Bool} (hp : p ∈ l) (hq : q ∈ l) (e : p.1 = q.1) : p = q := by
  induction l with
  | nil => cases hp
  | cons a l ih =>
    rw [List.pairwise_cons] at h
    cases hp with
    | head =>
      cases hq with
      | head => rfl
      | tail _ hq => have := h.1 _ hq; omega
    | tail _ hp =>
      cases hq with
      | head => have := h.1 _ hp; omega
      | tail _ hq => exact ih h.2 hp hq

theorem setValue_ok (store : V → V) (c : Cell V) (v : V) (now : Int) (ho : Ordered c) :
    c.setValue store v now (fun _ => false) =
      ({ c with
          raw := store v
          lastUpdated := now
          callbacks := if c.raw ≠ v then c.callbacks.filter (fun p => !p.2) else c.callbacks },
        if c.raw ≠ v then c.callbacks.map (fun p => ⟨p.1, c.raw, v⟩) else [], false) := by
  unfold Cell.setValue Cell.checkCallbacks
  by_cases he : c.callbacks = []
  · simp [he]
  by_cases hv : c.raw = v
  · simp [hv]
  simp only [ne_eq, he, not_false_eq_true, hv, and_self, if_true, serviceLoop_ok,
    Bool.false_eq_true, if_false, foldl_remove, Prod.mk.injEq, and_true]
  congr 1
  apply List.filter_congr
  intro p hp
  congr 1
  rw [Bool.eq_iff_iff]
  simp only [List.contains_eq_mem, decide_eq_true_eq, List.mem_map, List.mem_filter]
  constructor
  · rintro ⟨q, ⟨hq, hq2⟩, e⟩
    rw [← pairwise_fst_inj ho.1 hq hp e]; exact hq2
  · intro h
    exact ⟨p, ⟨hp, h⟩, rfl⟩

theorem ordered_step (store : V → V) (c : Cell V) (op : Op V) (ho : Ordered c) :
    Ordered (c.step store op).1 := by
  cases op with
  | register once =>
    simp only [Cell.step, Cell.register, Ordered]
    refine ⟨?_, ?_⟩
    · rw [List.pairwise_append]
      refine ⟨ho.1, by simp, ?_⟩
      intro a ha b hb
      simp only [List.mem_singleton] at hb
      subst hb
      exact ho.2 a ha
    · intro p hp
      simp only [List.mem_append, List.mem_singleton] at hp
      rcases hp with hp | hp
      · have := ho.2 p hp; omega
      · subst hp; simp
  | remove i =>
    simp only [Cell.step, remove_callbacks, Ordered]
    exact ⟨ho.1.filter _, fun p hp => ho.2 p (List.mem_filter.1 hp).1⟩
  | set v now =>
    simp only [Cell.step, setValue_ok store c v now ho, Ordered]
    split
    · exact ⟨ho.1.filter _, fun p hp => ho.2 p (List.mem_filter.1 hp).1⟩
    · exact ho

theorem ordered_after (store : V → V) (c0 : Cell V) (h0 : Ordered c0) (h : List (Op V)) :
    Ordered (c0.after store h) := by
  induction h with
  | nil => exact h0
  | cons op h ih => exact ordered_step store _ op ih

theorem init_ordered (store : V → V) (v : V) (now : Int) : Ordered (Cell.init store v now) := by
  simp [Ordered, Cell.init]

theorem after_curr (store : V → V) (v0 : V) (t : Int) (h : List (Op V)) :
    ((Cell.init store v0 t).after store h).curr = Spec.regCount h := by
  induction h with
  | nil => rfl
  | cons op h ih =>
    have ho := ordered_after store _ (init_ordered store v0 t) h
    cases op with
    | register once => simp [Cell.after, Cell.step, Cell.register, Spec.regCount, ih]
    | remove i => simp [Cell.after, Cell.step, remove_callbacks, Spec.regCount, ih]
    | set v now => simp [Cell.after, Cell.step, setValue_ok _ _ _ _ ho, Spec.regCount, ih]

theorem after_raw (store : V → V) (v0 : V) (t : Int) (h : List (Op V)) :
    ((Cell.init store v0 t).after store h).raw = Spec.value store (store v0) h := by
  induction h with
  | nil => rfl
  | cons op h ih =>
    have ho := ordered_after store _ (init_ordered store v0 t) h
    cases op with
    | register once => simp [Cell.after, Cell.step, Cell.register, Spec.value, ih]
    | remove i => simp [Cell.after, Cell.step, remove_callbacks, Spec.value, ih]
    | set v now => simp [Cell.after, Cell.step, setValue_ok _ _ _ _ ho, Spec.value]

theorem live_register (store : V → V) (v0 : V) (h : List (Op V)) (o : Bool) (i : Nat) (once : Bool) :
    Spec.Live store v0 (.register o :: h) i once ↔
      (i = Spec.regCount h ∧ once = o) ∨ Spec.Live store v0 h i once := by
  constructor
  · rintro ⟨later, earlier, e, hc, hr, hs⟩
    cases later with
    | nil =>
      simp only [List.nil_append, List.cons.injEq, Op.register.injEq] at e
      left; rw [e.2]; exact ⟨hc.symm, e.1.symm⟩
    | cons a later =>
      simp only [List.cons_append, List.cons.injEq] at e
      obtain ⟨ea, eh⟩ := e
      right
      refine ⟨later, earlier, eh, hc, fun hm => hr (List.mem_cons_of_mem _ hm), ?_⟩
      intro ho newer v now older e2
      exact hs ho (a :: newer) v now older (by rw [e2]; rfl)
  · rintro (⟨rfl, rfl⟩ | ⟨later, earlier, e, hc, hr, hs⟩)
    · exact ⟨[], h, rfl, rfl, by simp, by simp⟩
    · refine ⟨.register o :: later, earlier, by rw [e]; rfl, hc, by simpa using hr, ?_⟩
      intro ho newer v now older e2
      cases newer with
      | nil => simp at e2
      | cons a newer =>
        simp only [List.cons_append, List.cons.injEq] at e2
        exact hs ho newer v now older e2.2

theorem live_remove (store : V → V) (v0 : V) (h : List (Op V)) (j i : Nat) (once : Bool) :
    Spec.Live store v0 (.remove j :: h) i once ↔ i ≠ j ∧ Spec.Live store v0 h i once := by
  constructor
  · rintro ⟨later, earlier, e, hc, hr, hs⟩
    cases later with
    | nil => simp at e
    | cons a later =>
      simp only [List.cons_append, List.cons.injEq] at e
      obtain ⟨ea, eh⟩ := e
      subst ea
      refine ⟨fun e => hr (by simp [e]), later, earlier, eh, hc,
        fun hm => hr (List.mem_cons_of_mem _ hm), ?_⟩
      intro ho newer v now older e2
      exact hs ho (.remove j :: newer) v now older (by rw [e2]; rfl)
  · rintro ⟨hne, later, earlier, e, hc, hr, hs⟩
    refine ⟨.remove j :: later, earlier, by rw [e]; rfl, hc, ?_, ?_⟩
    · simp only [List.mem_cons, Op.remove.injEq, not_or]; exact ⟨hne, hr⟩
    · intro ho newer v now older e2
      cases newer with
      | nil => simp at e2
      | cons a newer =>
        simp only [List.cons_append, List.cons.injEq] at e2
        exact hs ho newer v now older e2.2

theorem live_set (store : V → V) (v0 : V) (h : List (Op V)) (v : V) (now : Int) (i : Nat) (once : Bool) :
    Spec.Live store v0 (.set v now :: h) i once ↔
      (once = true → v = Spec.value store v0 h) ∧ Spec.Live store v0 h i once := by
  constructor
  · rintro ⟨later, earlier, e, hc, hr, hs⟩
    cases later with
    | nil => simp at e
    | cons a later =>
      simp only [List.cons_append, List.cons.injEq] at e
      obtain ⟨ea, eh⟩ := e
      subst ea
      refine ⟨fun ho => by rw [eh]; exact hs ho [] v now later rfl, later, earlier, eh, hc,
        fun hm => hr (List.mem_cons_of_mem _ hm), ?_⟩
      intro ho newer v' now' older e2
      exact hs ho (.set v now :: newer) v' now' older (by rw [e2]; rfl)
  · rintro ⟨hv, later, earlier, e, hc, hr, hs⟩
    refine ⟨.set v now :: later, earlier, by rw [e]; rfl, hc, by simpa using hr, ?_⟩
    intro ho newer v' now' older e2
    cases newer with
    | nil =>
      simp only [List.nil_append, List.cons.injEq, Op.set.injEq] at e2
      obtain ⟨⟨rfl, rfl⟩, rfl⟩ := e2
      rw [← e]; exact hv ho
    | cons a newer =>
      simp only [List.cons_append, List.cons.injEq] at e2
      exact hs ho newer v' now' older e2.2

theorem mem_callbacks (store : V → V) (v0 : V) (t : Int) (h : List (Op V)) (i : Nat) (once : Bool) :
    (i, once) ∈ ((Cell.init store v0 t).after store h).callbacks ↔
      Spec.Live store (store v0) h i once := by
  induction h generalizing i once with
  | nil => simp [Cell.after, Cell.init, Spec.Live]
  | cons op h ih =>
    have ho := ordered_after store _ (init_ordered store v0 t) h
    cases op with
    | register o =>
      rw [live_register, ← ih]
      simp only [Cell.after, Cell.step, Cell.register, List.mem_append, List.mem_singleton,
        Prod.mk.injEq, after_curr]
      exact Or.comm
    | remove j =>
      rw [live_remove, ← ih]
      simp only [Cell.after, Cell.step, remove_callbacks, List.mem_filter, bne_iff_ne, ne_eq]
      exact And.comm
    | set v now =>
      rw [live_set, ← ih, ← after_raw store v0 t h]
      simp only [Cell.after, Cell.step, setValue_ok _ _ _ _ ho]
      by_cases hv : (Cell.after store (Cell.init store v0 t) h).raw = v
      · simp [hv]
      · have : ¬ v = (Cell.after store (Cell.init store v0 t) h).raw := fun e => hv e.symm
        simp only [ne_eq, hv, not_false_eq_true, if_true, List.mem_filter, this]
        cases once <;> simp

/-! ### Properties -/

/-- **C04** After any history, a set whose requested value equals the stored one calls nobody;
otherwise it calls exactly the live callbacks, each once and in registration order, with the
old stored value and the requested value. -/
theorem C04_callbacks_exact (store : V → V) (v0 : V) (t : Int) (h : List (Op V)) (v : V) (now : Int) :
    ∃ cs, (((Cell.init store v0 t).after store h).step store (.set v now)).2 = .calls cs ∧
      (v = Spec.value store (store v0) h → cs = []) ∧
      (v ≠ Spec.value store (store v0) h →
        (cs.map (·.id)).Pairwise (· < ·) ∧
        (∀ i, i ∈ cs.map (·.id) ↔ ∃ once, Spec.Live store (store v0) h i once) ∧
        ∀ c ∈ cs, c.old = Spec.value store (store v0) h ∧ c.new = v) := by
  have ho := ordered_after store _ (init_ordered store v0 t) h
  refine ⟨_, by simp only [Cell.step, setValue_ok _ _ _ _ ho]; rfl, ?_, ?_⟩
  · intro e
    rw [← after_raw store v0 t h] at e
    simp [e]
  · intro hne
    rw [← after_raw store v0 t h] at hne ⊢
    have hne' : ¬ (Cell.after store (Cell.init store v0 t) h).raw = v := fun e => hne e.symm
    simp only [ne_eq, hne', not_false_eq_true, if_true, List.map_map]
    refine ⟨?_, ?_, ?_⟩
    · rw [List.pairwise_map]
      exact ho.1
    · intro i
      simp only [List.mem_map, Function.comp_apply]
      constructor
      · rintro ⟨⟨j, once⟩, hm, rfl⟩
        exact ⟨once, (mem_callbacks store v0 t h j once).1 hm⟩
      · rintro ⟨once, hl⟩
        exact ⟨(i, once), (mem_callbacks store v0 t h i once).2 hl, rfl⟩
    · intro c hc
      obtain ⟨p, _, rfl⟩ := List.mem_map.1 hc
      exact ⟨rfl, rfl⟩

theorem regCount_append (l h : List (Op V)) : Spec.regCount h ≤ Spec.regCount (l ++ h) := by
  induction l with
  | nil => exact Nat.le_refl _
  | cons op l ih => cases op <;> simp only [List.cons_append, Spec.regCount] <;> omega

/-- An identifier already handed out that is not live never becomes live again. -/
theorem dead_forever (store : V → V) (v0 : V) (h : List (Op V)) (i : Nat)
    (hi : i < Spec.regCount h) (hd : ∀ once, ¬ Spec.Live store v0 h i once)
    (later : List (Op V)) : ∀ once, ¬ Spec.Live store v0 (later ++ h) i once := by
  induction later with
  | nil => exact hd
  | cons op later ih =>
    intro once hl
    have hm := regCount_append later h
    cases op with
    | register o =>
      rw [List.cons_append, live_register] at hl
      rcases hl with ⟨e, _⟩ | hl
      · omega
      · exact ih once hl
    | remove j => rw [List.cons_append, live_remove] at hl; exact ih once hl.2
    | set v now => rw [List.cons_append, live_set] at hl; exact ih once hl.2

theorem live_lt (store : V → V) (v0 : V) (t : Int) (h : List (Op V)) (i : Nat) (once : Bool)
    (hl : Spec.Live store (store v0) h i once) : i < Spec.regCount h := by
  have := (mem_callbacks store v0 t h i once).2 hl
  have h2 := (ordered_after store _ (init_ordered store v0 t) h).2 _ this
  rwa [after_curr] at h2

theorem live_once_unique (store : V → V) (v0 : V) (t : Int) (h : List (Op V)) (i : Nat) (a b : Bool)
    (ha : Spec.Live store (store v0) h i a) (hb : Spec.Live store (store v0) h i b) : a = b := by
  have h1 := (mem_callbacks store v0 t h i a).2 ha
  have h2 := (mem_callbacks store v0 t h i b).2 hb
  have := pairwise_fst_inj (ordered_after store _ (init_ordered store v0 t) h).1 h1 h2 rfl
  injection this

/-- **C04** A one-shot callback that has run is never called again, whatever happens later. -/
theorem C04_once_at_most_once (store : V → V) (v0 : V) (t : Int) (h : List (Op V)) (i : Nat)
    (v : V) (now : Int)
    (hl : Spec.Live store (store v0) h i true) (hv : v ≠ Spec.value store (store v0) h)
    (later : List (Op V)) (w : V) (now' : Int) (cs : List (Call V))
    (hcs : (((Cell.init store v0 t).after store (later ++ .set v now :: h)).step store
      (.set w now')).2 = .calls cs) : i ∉ cs.map (·.id) := by
  have dead : ∀ once, ¬ Spec.Live store (store v0) (.set v now :: h) i once := by
    intro once hlv
    rw [live_set] at hlv
    have e := live_once_unique store v0 t h i true once hl hlv.2
    exact hv (hlv.1 e.symm)
  have hd := dead_forever store (store v0) (.set v now :: h) i (live_lt store v0 t h i true hl)
    dead later
  obtain ⟨cs', e, h1, h2⟩ := C04_callbacks_exact store v0 t (later ++ .set v now :: h) w now'
  rw [e] at hcs
  injection hcs with hcs
  subst hcs
  by_cases hw : w = Spec.value store (store v0) (later ++ .set v now :: h)
  · rw [h1 hw]; simp
  · rw [(h2 hw).2.1]
    rintro ⟨once, hl⟩
    exact hd once hl

/-- **C04** A removed callback is never called again, whatever happens later. -/
theorem C04_removed_never_runs (store : V → V) (v0 : V) (t : Int) (h : List (Op V)) (i : Nat)
    (hi : i < Spec.regCount h)
    (later : List (Op V)) (w : V) (now' : Int) (cs : List (Call V))
    (hcs : (((Cell.init store v0 t).after store (later ++ .remove i :: h)).step store
      (.set w now')).2 = .calls cs) : i ∉ cs.map (·.id) := by
  have dead : ∀ once, ¬ Spec.Live store (store v0) (.remove i :: h) i once := by
    intro once hlv
    rw [live_remove] at hlv
    exact hlv.1 rfl
  have hd := dead_forever store (store v0) (.remove i :: h) i hi dead later
  obtain ⟨cs', e, h1, h2⟩ := C04_callbacks_exact store v0 t (later ++ .remove i :: h) w now'
  rw [e] at hcs
  injection hcs with hcs
  subst hcs
  by_cases hw : w = Spec.value store (store v0) (later ++ .remove i :: h)
  · rw [h1 hw]; simp
  · rw [(h2 hw).2.1]
    rintro ⟨once, hl⟩
    exact hd once hl

/-- **C04** If a callback raises during a set, the new value and time stamp are stored all the
same, the callbacks up to and including the raising one have run, the later ones have not, and
no callback (not even a one-shot that ran) is unregistered. -/
theorem C04_raising_callback (store : V → V) (c : Cell V) (v : V) (now : Int)
    (raises : Nat → Bool) (before after : List (Nat × Bool)) (i : Nat) (once : Bool)
    (hc : c.callbacks = before ++ (i, once) :: after) (hv : c.raw ≠ v)
    (hb : ∀ p ∈ before, raises p.1 = false) (hi : raises i = true) :
    c.setValue store v now raises =
      ({ c with raw := store v, lastUpdated := now },
        (before ++ [(i, once)]).map (fun p => ⟨p.1, c.raw, v⟩), true) := by
  have loop : ∀ before : List (Nat × Bool), (∀ p ∈ before, raises p.1 = false) →
      ∃ rm, serviceLoop raises c.raw v (before ++ (i, once) :: after) =
        ((before ++ [(i, once)]).map (fun p => ⟨p.1, c.raw, v⟩), rm, true) := by
    intro before hb
    induction before with
    | nil => exact ⟨[], by simp [serviceLoop, hi]⟩
    | cons p before ih =>
      obtain ⟨rm, e⟩ := ih (fun q hq => hb q (List.mem_cons_of_mem _ hq))
      have := hb p (List.mem_cons_self ..)
      obtain ⟨j, o⟩ := p
      exact ⟨if o then j :: rm else rm, by simp [serviceLoop, this, e]⟩
  obtain ⟨rm, e⟩ := loop before hb
  have hne : c.callbacks ≠ [] := by rw [hc]; simp
  unfold Cell.setValue Cell.checkCallbacks
  simp only [ne_eq, hne, not_false_eq_true, hv, and_self, if_true]
  rw [hc, e]
  simp

/-- A history that meets the hypotheses above: two callbacks, the first one-shot. -/
example : let h : List (Op Int) := [.register false, .register true]
    Spec.Live (wrap .uint8) 0 h 0 true ∧ Spec.Live (wrap .uint8) 0 h 1 false ∧
    (((Cell.init (wrap .uint8) 0 0).after (wrap .uint8) h).step (wrap .uint8) (.set 7 1)).2 =
      .calls [⟨0, 0, 7⟩, ⟨1, 0, 7⟩] ∧
    (((Cell.init (wrap .uint8) 0 0).after (wrap .uint8) (.set 7 1 :: h)).step (wrap .uint8)
      (.set 9 2)).2 = .calls [⟨1, 7, 9⟩] ∧
    (((Cell.init (wrap .uint8) 0 0).after (wrap .uint8) (.remove 1 :: .set 7 1 :: h)).step
      (wrap .uint8) (.set 9 2)).2 = .calls [] := by
  refine ⟨⟨[.register false], [], rfl, rfl, by simp, ?_⟩, ⟨[], [.register true], rfl, rfl, by simp,
    by simp⟩, by decide, by decide, by decide⟩
  intro _ newer v now older e
  rcases newer with _ | ⟨a, _ | ⟨b, n⟩⟩ <;> simp at e

/-- A raising callback in the middle of three. -/
example : (⟨0, 3, [(0, true), (1, false), (2, false)], 0⟩ : Cell Int).setValue
      (wrap .int8) 5 9 (· == 1) =
    (⟨5, 3, [(0, true), (1, false), (2, false)], 9⟩,
      [⟨0, 0, 5⟩, ⟨1, 0, 5⟩], true) := by decide

/-- **C05** A registration returns an identifier larger than every identifier returned before,
and removing an identifier reports success exactly when that callback is live. -/
theorem C05_fresh_identifiers (store : V → V) (v0 : V) (t : Int) (h : List (Op V)) (once : Bool) :
    (((Cell.init store v0 t).after store h).step store (.register once)).2 =
      .registered (Spec.regCount h) ∧
    (∀ i o, (((Cell.init store v0 t).after store h).step store (.remove i)).2 = .removed o →
      (o = true ↔ ∃ once, Spec.Live store (store v0) h i once)) := by
  refine ⟨by simp [Cell.step, Cell.register, after_curr], ?_⟩
  intro i o e
  have : o = ((Cell.init store v0 t).after store h).callbacks.any (·.1 == i) := by
    simp only [Cell.step, Cell.remove] at e
    split at e <;> rename_i hh
    · injection e with e; rw [hh, ← e]
    · injection e with e; rw [Bool.not_eq_true] at hh; rw [hh, ← e]
  rw [this, List.any_eq_true]
  constructor
  · rintro ⟨⟨j, once⟩, hm, e⟩
    simp only [beq_iff_eq] at e
    subst e
    exact ⟨once, (mem_callbacks store v0 t h _ once).1 hm⟩
  · rintro ⟨once, hl⟩
    exact ⟨(i, once), (mem_callbacks store v0 t h i once).2 hl, by simp⟩

/-- **C05** Removing a callback that is not live (stale identifier) changes nothing. -/
theorem C05_stale_remove (store : V → V) (v0 : V) (t : Int) (h : List (Op V)) (i : Nat)
    (hd : ∀ once, ¬ Spec.Live store (store v0) h i once) :
    ((Cell.init store v0 t).after store h).step store (.remove i) =
      ((Cell.init store v0 t).after store h, .removed false) := by
  have : ((Cell.init store v0 t).after store h).callbacks.any (·.1 == i) = false := by
    rw [Bool.eq_false_iff]
    intro e
    obtain ⟨⟨j, once⟩, hm, e⟩ := List.any_eq_true.1 e
    simp only [beq_iff_eq] at e
    subst e
    exact hd once ((mem_callbacks store v0 t h _ once).1 hm)
  simp [Cell.step, Cell.remove, this]

example : let h : List (Op Int) := [.remove 0, .register false, .register false]
    (((Cell.init (wrap .uint8) 0 0).after (wrap .uint8) h).step (wrap .uint8) (.register true)).2 =
      .registered 2 ∧
    (((Cell.init (wrap .uint8) 0 0).after (wrap .uint8) h).step (wrap .uint8) (.remove 0)).2 =
      .removed false := by decide

/-- **C03** An integer primitive after any history of sets: in range and congruent to the last
request. The initial value counts as a request. -/
theorem C03_value_in_range (k : IntKind) (v0 : Int) (t : Int) (h : List (Op Int)) :
    let c := (Cell.init (wrap k) v0 t).after (wrap k) h
    Spec.lo k ≤ c.raw ∧ c.raw ≤ Spec.hi k ∧
    ∀ later v now older, h = later ++ .set v now :: older → (∀ v' n', .set v' n' ∉ later) →
      c.raw % Spec.card k = v % Spec.card k := by
  have hw : ∃ v, Spec.value (wrap k) (wrap k v0) h = wrap k v := by
    induction h with
    | nil => exact ⟨v0, rfl⟩
    | cons op h ih => cases op <;> simp only [Spec.value] <;> first | exact ih | exact ⟨_, rfl⟩
  obtain ⟨v, hv⟩ := hw
  simp only [after_raw]
  have hr := (packable_iff k _).1 (wrap_packable k v)
  refine ⟨by rw [hv]; exact hr.1, by rw [hv]; exact hr.2, ?_⟩
  intro later w now older e hn
  have : Spec.value (wrap k) (wrap k v0) h = wrap k w := by
    rw [e]
    clear e hv
    induction later with
    | nil => rfl
    | cons op later ih =>
      cases op with
      | set v' n' => exact absurd (List.mem_cons_self ..) (hn v' n')
      | register o => exact ih (fun v' n' hm => hn v' n' (List.mem_cons_of_mem _ hm))
      | remove o => exact ih (fun v' n' hm => hn v' n' (List.mem_cons_of_mem _ hm))
  rw [this, ← spec_card, Nat.mul_comm]
  exact wrap_emod k w

/-- Requests to an integer primitive. -/
inductive Req where
  | set (v : Int)
  | inc (amount : Int)

/-- Applying a request with the modelled code (no callbacks raise). -/
def Req.run (k : IntKind) (c : Cell Int) : Req → Cell Int
  | .set v => (c.setValue (wrap k) v 0 (fun _ => false)).1
  | .inc a => (increment k c a 0 (fun _ => false)).1

/-- The same requests on an unbounded integer. -/
def Spec.ideal (v : Int) : Req → Int
  | .set w => w
  | .inc a => v + a

theorem setValue_raw (store : V → V) (c : Cell V) (v : V) (now : Int) (r : Nat → Bool) :
    (c.setValue store v now r).1.raw = store v := by
  unfold Cell.setValue Cell.checkCallbacks
  dsimp only
  split
  · generalize hs : serviceLoop r c.raw v _ = x
    obtain ⟨calls, rm, err⟩ := x
    dsimp only
    split
    · rfl
    · rw [foldl_remove]
  · rfl

/-- **C03** Over any history of sets and increments by arbitrary integers, an integer primitive
holds the value of an unbounded counter reduced into the range of its type, and that value can
always be encoded. -/
theorem C03_sets_and_increments (k : IntKind) (v0 : Int) (t : Int) (rs : List Req) :
    let c := rs.foldl (Req.run k) (Cell.init (wrap k) v0 t)
    let ideal := rs.foldl Spec.ideal v0
    c.raw % Spec.card k = ideal % Spec.card k ∧ Spec.lo k ≤ c.raw ∧ c.raw ≤ Spec.hi k ∧
    ∀ o, ∃ bs, encodeInt k o c.raw = .ok bs := by
  have key : ∀ (rs : List Req) (c : Cell Int) (v : Int),
      (∃ w, c.raw = wrap k w) → c.raw % Spec.card k = v % Spec.card k →
      (∃ w, (rs.foldl (Req.run k) c).raw = wrap k w) ∧
      (rs.foldl (Req.run k) c).raw % Spec.card k = rs.foldl Spec.ideal v % Spec.card k := by
    intro rs
    induction rs with
    | nil => intro c v h1 h2; exact ⟨h1, h2⟩
    | cons r rs ih =>
      intro c v h1 h2
      simp only [List.foldl_cons]
      apply ih
      · cases r <;> simp only [Req.run, increment, setValue_raw] <;> exact ⟨_, rfl⟩
      · have hw := wrap_emod k
        rw [IntKind.bits, Nat.mul_comm, spec_card] at hw
        cases r with
        | set w => simp only [Req.run, setValue_raw, Spec.ideal, hw]
        | inc a =>
          simp only [Req.run, increment, setValue_raw, Spec.ideal, hw]
          rw [Int.add_emod, h2, ← Int.add_emod]
  have h0 : (Cell.init (wrap k) v0 t).raw % Spec.card k = v0 % Spec.card k := by
    have hw := wrap_emod k v0
    rw [IntKind.bits, Nat.mul_comm, spec_card] at hw
    exact hw
  obtain ⟨⟨w, hw⟩, hm⟩ := key rs (Cell.init (wrap k) v0 t) v0 ⟨v0, rfl⟩ h0
  dsimp only
  have hr := (packable_iff k _).1 (wrap_packable k w)
  rw [← hw] at hr
  refine ⟨hm, hr.1, hr.2, fun o => ?_⟩
  obtain ⟨bs, e, -⟩ := (C01_encode_decode k o _).1 hr
  exact ⟨bs, e⟩

example : ([Req.set 250, .inc 10, .inc (-5)].foldl (Req.run .uint8)
    (Cell.init (wrap .uint8) 0 0)).raw = 255 ∧
    ([Req.set 127, .inc 1].foldl (Req.run .int8) (Cell.init (wrap .int8) 0 0)).raw = -128 := by
  decide

/-- **C06** (partial: for requests inside the type's range) every callback is told the value
the primitive now holds, and `increment` returns it. -/
theorem C06_reported_value_partial (k : IntKind) (c : Cell Int) (v : Int) (now : Int)
    (r : Nat → Bool) (hv : Spec.lo k ≤ v ∧ v ≤ Spec.hi k) :
    (∀ call ∈ (c.setValue (wrap k) v now r).2.1, call.new = (c.setValue (wrap k) v now r).1.raw) ∧
    (increment k c (v - c.raw) now r).2.2.2 = (increment k c (v - c.raw) now r).1.raw := by
  have hw := wrap_of_packable k v ((packable_iff k v).2 hv)
  have hcalls : ∀ (l : List (Nat × Bool)), ∀ call ∈ (serviceLoop r c.raw v l).1, call.new = v := by
    intro l
    induction l with
    | nil => simp [serviceLoop]
    | cons p l ih =>
      obtain ⟨i, o⟩ := p
      simp only [serviceLoop]
      split
      · simp
      · intro call hm
        simp only [List.mem_cons] at hm
        rcases hm with rfl | hm
        · rfl
        · exact ih call hm
  constructor
  · rw [setValue_raw, hw]
    intro call hm
    unfold Cell.setValue Cell.checkCallbacks at hm
    dsimp only at hm
    split at hm
    · revert hm
      have := hcalls c.callbacks
      generalize serviceLoop r c.raw v c.callbacks = x at this ⊢
      obtain ⟨calls, rm, err⟩ := x
      dsimp only
      split <;> exact this call
    · simp at hm
  · simp only [increment, setValue_raw]
    have : c.raw + (v - c.raw) = v := by omega
    rw [this, hw]

/-- **C06** Without the range condition the claim is false of the code: a `uint8` told to hold
256 holds 0, the callback is told 256, and it runs although the stored value did not change. -/
theorem C06_reported_value_fails :
    ∃ (c : Cell Int) (v : Int),
      (c.setValue (wrap .uint8) v 0 (fun _ => false)).2.1 = [⟨0, 0, 256⟩] ∧
      (c.setValue (wrap .uint8) v 0 (fun _ => false)).1.raw = 0 ∧ c.raw = 0 ∧
      (increment .uint8 { c with raw := 255 } 1 0 (fun _ => false)).2.2.2 = 256 :=
  ⟨{ raw := 0, curr := 1, callbacks := [(0, false)], lastUpdated := 0 }, 256, by decide⟩

/-- **C63** The reported age counts from the latest set (or from creation). -/
theorem C63_age (store : V → V) (v0 : V) (t : Int) (h : List (Op V)) (now : Int) :
    (∀ v s, ((Cell.init store v0 t).after store (.set v s :: h)).age now = now - s) ∧
    (∀ o, ((Cell.init store v0 t).after store (.register o :: h)).age now =
      ((Cell.init store v0 t).after store h).age now) ∧
    (∀ i, ((Cell.init store v0 t).after store (.remove i :: h)).age now =
      ((Cell.init store v0 t).after store h).age now) ∧
    ((Cell.init store v0 t).after store []).age now = now - t := by
  have ho := ordered_after store _ (init_ordered store v0 t) h
  refine ⟨?_, ?_, ?_, rfl⟩
  · intro v s
    simp [Cell.after, Cell.step, setValue_ok _ _ _ _ ho, Cell.age]
  · intro o; simp [Cell.after, Cell.step, Cell.register, Cell.age]
  · intro i; simp [Cell.after, Cell.step, remove_callbacks, Cell.age]

/-- **C04** Toggling a boolean always changes it, so it always calls every callback. -/
theorem C04_toggle (c : Cell Bool) (now : Int) :
    (toggle c now (fun _ => false)).1.raw = !c.raw ∧
    (toggle c now (fun _ => false)).2.1 = c.callbacks.map (fun p => ⟨p.1, c.raw, !c.raw⟩) := by
  have hne : c.raw ≠ !c.raw := by cases c.raw <;> simp
  constructor
  · exact setValue_raw _ _ _ _ _
  · unfold toggle Cell.setValue Cell.checkCallbacks
    by_cases he : c.callbacks = []
    · simp [he]
    · simp [he, hne, serviceLoop_ok]

end Verif.Prim
