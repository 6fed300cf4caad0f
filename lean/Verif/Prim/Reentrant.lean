import Verif.Base
/-!
C132: callbacks that act on their primitive: `primitives/base.py` 102–119 (`register_callback`, `remove_callback`),
142–166 (`_check_callbacks`, `set_value`).

C04 to C06 treat callbacks that only look. Here a callback may assign to the primitive it is called for (first part), or
raise, register or remove a callback (second part). Values are those in the range of the type (C03); what a callback does
may depend on anything, so it is a relation. Runs that do not end (callbacks that assign to each other for ever, a
`RecursionError` in Python) have no derivation. In the first part no callback is for one time: removing one in a nested assignment would end the
outer loop as in the second part. Iterating over a dictionary is CPython's: its size is compared at every step
with the size at the start.
-/
namespace Verif.Reentrant
open Verif

/-! ### Callbacks that assign -/

/-- A call: the callback, the value before and the value after it was told. -/
structure Note where
  id : Nat
  curr : Int
  new : Int
deriving DecidableEq, Repr

/-- What callback `id`, called with `curr` and `new` while the primitive holds `held`, may assign. -/
abbrev Acts := Nat → Int → Int → Int → Option Int → Prop

/-- The loop of `_check_callbacks`, base.py 145–150, over the callbacks left, with the nested `set_value`s: the value held
before and after and the calls made. Two cases of assigning: the value held (145: `curr != new` is false) and another. -/
inductive Calls (acts : Acts) (all : List Nat) : List Nat → Int → Int → Int → Int → List Note → Prop
  | done (c n v : Int) : Calls acts all [] c n v v []
  | quiet {i rest c n v v' log} : acts i c n v none → Calls acts all rest c n v v' log →
      Calls acts all (i :: rest) c n v v' (⟨i, c, n⟩ :: log)
  | same {i rest c n v v' log} : acts i c n v (some v) → Calls acts all rest c n v v' log →
      Calls acts all (i :: rest) c n v v' (⟨i, c, n⟩ :: log)
  | assigns {i rest c n v y v₁ v' inner log} : acts i c n v (some y) → v ≠ y → Calls acts all all v y y v₁ inner →
      Calls acts all rest c n v₁ v' log → Calls acts all (i :: rest) c n v v' (⟨i, c, n⟩ :: (inner ++ log))

/-- `set_value`, base.py 156–166, on a primitive holding `v`. -/
inductive Assign (acts : Acts) (all : List Nat) (v : Int) : Int → Int → List Note → Prop
  | same : Assign acts all v v v []
  | changed {x v' log} : v ≠ x → Calls acts all all v x x v' log → Assign acts all v x v' log

/-- What one callback was told. -/
def told (i : Nat) (log : List Note) : List (Int × Int) := (log.filter fun m => m.id = i).map fun m => (m.curr, m.new)

/-- Each report starts where the one before ended, from `a` to `b`. -/
def Follows : Int → List (Int × Int) → Int → Prop
  | a, [], b => a = b
  | a, p :: ps, b => p.1 = a ∧ Follows p.2 ps b

theorem follows_append {a b c : Int} {p q : List (Int × Int)} (h : Follows a p b) (k : Follows b q c) :
    Follows a (p ++ q) c := by
  induction p generalizing a with
  | nil => cases h; exact k
  | cons x xs ih => exact ⟨h.1, ih h.2⟩

theorem told_append (i : Nat) (p q : List Note) : told i (p ++ q) = told i p ++ told i q := by simp [told]

theorem told_other {i j : Nat} (h : j ≠ i) (c n : Int) (log : List Note) : told i (⟨j, c, n⟩ :: log) = told i log := by
  simp [told, h]

theorem told_self (i : Nat) (c n : Int) (log : List Note) : told i (⟨i, c, n⟩ :: log) = (c, n) :: told i log := by
  simp [told]

/-- A callback that never assigns. -/
def Passive (acts : Acts) (i : Nat) : Prop := ∀ c n v o, acts i c n v o → o = none

theorem calls_follow {acts : Acts} {all front back : List Nat} {i : Nat} (hall : all = front ++ i :: back)
    (hf : ∀ j ∈ front, Passive acts j ∧ j ≠ i) (hi : Passive acts i) (hb : i ∉ back)
    {rest : List Nat} {c n v v' : Int} {log : List Note} (h : Calls acts all rest c n v v' log) :
    (i ∉ rest → Follows v (told i log) v') ∧
    (∀ f, rest = f ++ i :: back → (∀ j ∈ f, Passive acts j ∧ j ≠ i) → v = n → Follows c (told i log) v') := by
  induction h with
  | done c n v => exact ⟨fun _ => rfl, fun f e => by simp at e⟩
  | @quiet j rest c n v v' log ha _ ih =>
    constructor
    · intro hn
      rw [told_other (by intro e; exact hn (by simp [e]))]
      exact ih.1 (fun e => hn (by simp [e]))
    · intro f e hp hv
      cases f with
      | nil =>
        obtain ⟨rfl, rfl⟩ := List.cons.inj e
        rw [told_self]
        exact ⟨rfl, hv ▸ ih.1 hb⟩
      | cons k ks =>
        obtain ⟨rfl, e'⟩ := List.cons.inj e
        rw [told_other (hp j (by simp)).2]
        exact ih.2 ks e' (fun x hx => hp x (by simp [hx])) hv
  | @same j rest c n v v' log ha _ ih =>
    constructor
    · intro hn
      rw [told_other (by intro e; exact hn (by simp [e]))]
      exact ih.1 (fun e => hn (by simp [e]))
    · intro f e hp hv
      cases f with
      | nil =>
        obtain ⟨rfl, rfl⟩ := List.cons.inj e
        exact absurd (hi _ _ _ _ ha) (by simp)
      | cons k ks =>
        obtain ⟨rfl, e'⟩ := List.cons.inj e
        exact absurd ((hp j (by simp)).1 _ _ _ _ ha) (by simp)
  | @assigns j rest c n v y v₁ v' inner log ha _ _ _ ih₁ ih₂ =>
    constructor
    · intro hn
      rw [told_other (by intro e; exact hn (by simp [e])), told_append]
      exact follows_append (ih₁.2 front hall hf rfl) (ih₂.1 (fun e => hn (by simp [e])))
    · intro f e hp hv
      cases f with
      | nil =>
        obtain ⟨rfl, rfl⟩ := List.cons.inj e
        exact absurd (hi _ _ _ _ ha) (by simp)
      | cons k ks =>
        obtain ⟨rfl, e'⟩ := List.cons.inj e
        exact absurd ((hp j (by simp)).1 _ _ _ _ ha) (by simp)

/-- C132, for a callback registered before all that assign: whatever the others assign, in however deep nesting, its reports
follow the value from the old one to the one held at the end, without gap. -/
theorem C132_first_partial (acts : Acts) (front back : List Nat) (i : Nat) (hf : ∀ j ∈ front, Passive acts j ∧ j ≠ i)
    (hi : Passive acts i) (hb : i ∉ back) (v x v' : Int) (log : List Note)
    (h : Assign acts (front ++ i :: back) v x v' log) : Follows v (told i log) v' := by
  cases h with
  | same => rfl
  | changed hne hc => exact (calls_follow rfl hf hi hb hc).2 front rfl hf rfl

/-- The last report of such a callback is the value held. -/
theorem follows_last {a b : Int} {p : List (Int × Int)} (h : Follows a p b) (m : Int × Int) (hm : p.getLast? = some m) :
    m.2 = b := by
  induction p generalizing a with
  | nil => simp at hm
  | cons x xs ih =>
    cases xs with
    | nil => simp at hm; subst hm; exact h.2
    | cons y ys => exact ih h.2 (by simpa [List.getLast?_cons_cons] using hm)

theorem C132_last_partial (acts : Acts) (front back : List Nat) (i : Nat) (hf : ∀ j ∈ front, Passive acts j ∧ j ≠ i)
    (hi : Passive acts i) (hb : i ∉ back) (v x v' : Int) (log : List Note)
    (h : Assign acts (front ++ i :: back) v x v' log) (m : Int × Int) (hm : (told i log).getLast? = some m) : m.2 = v' :=
  follows_last (C132_first_partial acts front back i hf hi hb v x v' log h) m hm

theorem calls_passive {acts : Acts} {all rest : List Nat} (hp : ∀ j ∈ rest, Passive acts j) {c n v v' : Int}
    {log : List Note} (h : Calls acts all rest c n v v' log) : v' = v ∧ log = rest.map fun j => ⟨j, c, n⟩ := by
  induction rest generalizing log with
  | nil => cases h; exact ⟨rfl, rfl⟩
  | cons j js ih =>
    cases h with
    | quiet ha hc =>
      obtain ⟨rfl, rfl⟩ := ih (fun k hk => hp k (by simp [hk])) hc
      exact ⟨rfl, rfl⟩
    | same ha _ => exact absurd (hp j (by simp) _ _ _ _ ha) (by simp)
    | assigns ha _ _ _ => exact absurd (hp j (by simp) _ _ _ _ ha) (by simp)

/-- C132: callbacks that only look are each told the change once, in the order of registration, and the value assigned is
the value held. -/
theorem C132_passive (acts : Acts) (all : List Nat) (hp : ∀ j ∈ all, Passive acts j) (v x v' : Int) (log : List Note)
    (h : Assign acts all v x v' log) : v' = x ∧ log = if v = x then [] else all.map fun j => ⟨j, v, x⟩ := by
  cases h with
  | same => simp
  | changed hne hc =>
    obtain ⟨rfl, rfl⟩ := calls_passive hp hc
    simp [hne]

/-- A callback that keeps the value at or below a limit. -/
def Limits (acts : Acts) (k : Nat) (limit : Int) : Prop :=
  ∀ c n v o, acts k c n v o ↔ o = if limit < n then some limit else none

/-- C132 fails for callbacks registered after one that keeps a limit: they are told of the correction first and of the
value corrected last, a value the primitive does not hold any more. -/
theorem C132_later_fails (acts : Acts) (k : Nat) (rest : List Nat) (limit : Int) (hk : Limits acts k limit)
    (hp : ∀ j ∈ rest, Passive acts j) (v x v' : Int) (log : List Note) (hv : v ≤ limit) (hx : limit < x)
    (h : Assign acts (k :: rest) v x v' log) :
    v' = limit ∧
    log = ⟨k, v, x⟩ :: ⟨k, x, limit⟩ :: ((rest.map fun j => ⟨j, x, limit⟩) ++ rest.map fun j => ⟨j, v, x⟩) := by
  cases h with
  | same => omega
  | changed hne hc =>
    cases hc with
    | quiet ha _ => exact absurd ((hk _ _ _ _).1 ha) (by simp [hx])
    | same ha _ =>
      have e := (hk _ _ _ _).1 ha
      rw [if_pos hx] at e
      have := Option.some.inj e
      omega
    | assigns ha hy hin hout =>
      have e := (hk _ _ _ _).1 ha
      rw [if_pos hx] at e
      obtain rfl := Option.some.inj e
      cases hin with
      | quiet _ hq =>
        obtain ⟨rfl, rfl⟩ := calls_passive hp hq
        obtain ⟨rfl, rfl⟩ := calls_passive hp hout
        exact ⟨rfl, rfl⟩
      | same hb _ => exact absurd ((hk _ _ _ _).1 hb) (by simp)
      | assigns hb _ _ _ => exact absurd ((hk _ _ _ _).1 hb) (by simp)

theorem told_map {i : Nat} {rest : List Nat} (hi : i ∈ rest) (hn : rest.Nodup) (c n : Int) :
    told i (rest.map fun j => ⟨j, c, n⟩) = [(c, n)] := by
  induction rest with
  | nil => simp at hi
  | cons j js ih =>
    obtain ⟨hj, hn⟩ := List.nodup_cons.1 hn
    by_cases e : j = i
    · subst e
      have : told j (js.map fun k => (⟨k, c, n⟩ : Note)) = [] := by
        simp only [told, List.map_eq_nil_iff, List.filter_eq_nil_iff, List.mem_map]
        rintro m ⟨k, hk, rfl⟩
        simp only [decide_eq_true_eq]
        rintro rfl
        exact hj hk
      rw [List.map_cons, told_self, this]
    · rw [List.map_cons, told_other e]
      exact ih (by simpa [Ne.symm e] using hi) hn

/-- What such a callback is told: its last report is not the value held. -/
theorem C132_stale_fails (acts : Acts) (k : Nat) (rest : List Nat) (limit : Int) (hk : Limits acts k limit)
    (hp : ∀ j ∈ rest, Passive acts j) (hn : (k :: rest).Nodup) (i : Nat) (hi : i ∈ rest) (v x v' : Int) (log : List Note)
    (hv : v ≤ limit) (hx : limit < x) (h : Assign acts (k :: rest) v x v' log) :
    told i log = [(x, limit), (v, x)] ∧ v' = limit ∧ v' ≠ x := by
  obtain ⟨rfl, rfl⟩ := C132_later_fails acts k rest limit hk hp v x v' log hv hx h
  obtain ⟨hki, hn⟩ := List.nodup_cons.1 hn
  have hne : k ≠ i := by rintro rfl; exact hki hi
  refine ⟨?_, rfl, by omega⟩
  rw [told_other hne, told_other hne, told_append, told_map hi hn, told_map hi hn]
  rfl

/-! ### Callbacks that raise, register and remove -/

/-- What a callback does when it is called. -/
inductive Act
  | quiet
  | raises (e : PyErr)
  | adds (once : Bool)
  | removes (id : Nat)
deriving DecidableEq, Repr

structure Cb where
  id : Nat
  once : Bool
  act : Act
deriving DecidableEq, Repr

/-- `callbacks` and `curr_callback`, base.py 61–64. -/
structure Prim where
  cbs : List Cb
  next : Nat
deriving DecidableEq, Repr

/-- `register_callback`, base.py 102–110; the new callback looks only. -/
def register (p : Prim) (once : Bool) : Prim := ⟨p.cbs ++ [⟨p.next, once, .quiet⟩], p.next + 1⟩

/-- `remove_callback`, base.py 112–119. -/
def remove (p : Prim) (id : Nat) : Prim := { p with cbs := p.cbs.filter fun c => c.id ≠ id }

/-- Calling a callback. -/
def call (p : Prim) : Act → Prim × Option PyErr
  | .quiet => (p, none)
  | .raises e => (p, some e)
  | .adds once => (register p once, none)
  | .removes id => (remove p id, none)

/-- The loop, base.py 147–150, begun with `size` callbacks: who is called, the callbacks after it and what it raises. The
dictionary's iterator raises as soon as it is asked for more after a change of size. -/
def loop (size : Nat) : List Cb → Prim → List Nat × Prim × Option PyErr
  | [], p => ([], p, if p.cbs.length = size then none else some .runtime)
  | c :: rest, p =>
    if p.cbs.length = size then
      match call p c.act with
      | (q, some e) => ([c.id], q, some e)
      | (q, none) => let r := loop size rest q; (c.id :: r.1, r.2)
    else ([], p, some .runtime)

/-- `_check_callbacks` for a changed value, base.py 145–154. -/
def check (p : Prim) : List Nat × Prim × Option PyErr :=
  match loop p.cbs.length p.cbs p with
  | (called, q, none) => (called, (p.cbs.filter (·.once)).foldl (fun s c => remove s c.id) q, none)
  | r => r

theorem loop_quiet (size : Nat) (cbs rest : List Cb) (p : Prim) (hs : p.cbs.length = size) (hq : ∀ c ∈ cbs, c.act = .quiet) :
    loop size (cbs ++ rest) p = (cbs.map (·.id) ++ (loop size rest p).1, (loop size rest p).2) := by
  induction cbs with
  | nil => rfl
  | cons c cs ih =>
    rw [List.cons_append, loop, if_pos hs, hq c (by simp)]
    simp only [call, ih (fun d hd => hq d (by simp [hd])), List.map_cons, List.cons_append]

theorem removes_all (ids : List Cb) (p : Prim) :
    ids.foldl (fun s c => remove s c.id) p = { p with cbs := p.cbs.filter fun c => ids.all fun d => c.id ≠ d.id } := by
  induction ids generalizing p with
  | nil => simp only [List.foldl_nil, List.all_nil, List.filter_eq_self.2 (fun _ _ => rfl)]
  | cons d ds ih =>
    rw [List.foldl_cons, ih, remove]
    simp only [List.filter_filter, List.all_cons]
    congr 1
    apply List.filter_congr
    intro c _
    exact Bool.and_comm _ _

theorem eq_of_id {cbs : List Cb} (hn : (cbs.map (·.id)).Nodup) {c d : Cb} (hc : c ∈ cbs) (hd : d ∈ cbs)
    (e : c.id = d.id) : c = d := by
  induction cbs with
  | nil => simp at hc
  | cons b bs ih =>
    obtain ⟨hb, hn⟩ := List.nodup_cons.1 hn
    rcases List.mem_cons.1 hc with rfl | hc' <;> rcases List.mem_cons.1 hd with rfl | hd'
    · rfl
    · exact absurd (List.mem_map.2 ⟨d, hd', e.symm⟩) hb
    · exact absurd (List.mem_map.2 ⟨c, hc', e⟩) hb
    · exact ih hn hc' hd'

theorem loop_resized {size : Nat} {p : Prim} (h : p.cbs.length ≠ size) (rest : List Cb) :
    loop size rest p = ([], p, some .runtime) := by
  cases rest with
  | nil => simp [loop, h]
  | cons d ds => simp [loop, h]

theorem loop_none (size : Nat) (cbs : List Cb) (p : Prim) (hs : p.cbs.length = size)
    (h : (loop size cbs p).2.2 = none) : loop size cbs p = (cbs.map (·.id), p, none) := by
  induction cbs with
  | nil => simp [loop, hs]
  | cons c cs ih =>
    rw [loop, if_pos hs] at h ⊢
    cases ha : c.act with
    | quiet =>
      simp only [ha, call] at h ⊢
      rw [ih h]
      rfl
    | raises e => simp [ha, call] at h
    | adds once =>
      have hl : (register p once).cbs.length ≠ size := by simp [register, hs]
      simp [ha, call, loop_resized hl] at h
    | removes id =>
      by_cases hl : (remove p id).cbs.length = size
      · have e : remove p id = p := by
          have := List.length_filter_eq_length_iff.1 (hl.trans hs.symm)
          rw [remove, List.filter_eq_self.2 this]
        simp only [ha, call, e] at h ⊢
        rw [ih h]
        rfl
      · simp [ha, call, loop_resized hl] at h

theorem filter_once (p : Prim) (hn : (p.cbs.map (·.id)).Nodup) :
    (p.cbs.filter (·.once)).foldl (fun s c => remove s c.id) p = { p with cbs := p.cbs.filter fun c => !c.once } := by
  rw [removes_all]
  congr 1
  apply List.filter_congr
  intro c hc
  rw [Bool.eq_iff_iff]
  simp only [List.all_eq_true, List.mem_filter, decide_eq_true_eq, Bool.not_eq_true', and_imp]
  constructor
  · intro h
    cases e : c.once with
    | false => rfl
    | true => exact absurd rfl (h c hc e)
  · intro ho d hd hod e
    have : c = d := eq_of_id hn hc hd e
    subst this
    simp [ho] at hod

/-- C132: whatever the callbacks do, an assignment that does not raise has told all of them, in order, and exactly those for
one time are gone. -/
theorem C132_silent (p : Prim) (hn : (p.cbs.map (·.id)).Nodup) (h : (check p).2.2 = none) :
    check p = (p.cbs.map (·.id), { p with cbs := p.cbs.filter fun c => !c.once }, none) := by
  have hl : (loop p.cbs.length p.cbs p).2.2 = none := by
    rw [check] at h
    split at h
    · rename_i e
      rw [e]
    · exact h
  rw [check, loop_none _ _ p rfl hl]
  simp only [filter_once p hn]

/-- C132: callbacks that only look are all called, in order, and exactly those for one time are gone. -/
theorem C132_called (p : Prim) (hq : ∀ c ∈ p.cbs, c.act = .quiet) (hn : (p.cbs.map (·.id)).Nodup) :
    check p = (p.cbs.map (·.id), { p with cbs := p.cbs.filter fun c => !c.once }, none) := by
  have h := loop_quiet p.cbs.length p.cbs [] p rfl hq
  rw [List.append_nil] at h
  rw [check, h]
  simp only [loop, if_pos, List.append_nil, filter_once p hn]

/-- C132 fails after an exception: the callbacks behind it are not told, although the value has changed, and those for one
time stay and are called for the next change too. -/
theorem C132_raises_fails (p : Prim) (front back : List Cb) (c : Cb) (e : PyErr) (hp : p.cbs = front ++ c :: back)
    (hf : ∀ d ∈ front, d.act = .quiet) (hc : c.act = .raises e) :
    check p = (front.map (·.id) ++ [c.id], p, some e) ∧ check (check p).2.1 = check p := by
  have h : check p = (front.map (·.id) ++ [c.id], p, some e) := by
    have h' : loop p.cbs.length p.cbs p = (front.map (·.id) ++ [c.id], p, some e) := by
      conv => lhs; arg 2; rw [hp]
      rw [loop_quiet _ front (c :: back) p rfl hf, loop, if_pos rfl, hc]
      rfl
    rw [check, h']
  exact ⟨h, by rw [h]; simpa using h⟩

/-- C132 fails for a callback that registers another one: the assignment raises, the callbacks behind it are not told, and
those for one time stay. -/
theorem C132_adds_fails (p : Prim) (front back : List Cb) (c : Cb) (once : Bool) (hp : p.cbs = front ++ c :: back)
    (hf : ∀ d ∈ front, d.act = .quiet) (hc : c.act = .adds once) :
    check p = (front.map (·.id) ++ [c.id], register p once, some .runtime) := by
  have hl : ∀ rest, loop p.cbs.length rest (register p once) = ([], register p once, some .runtime) := by
    intro rest
    have : (register p once).cbs.length ≠ p.cbs.length := by simp [register]
    cases rest with
    | nil => simp [loop, this]
    | cons d ds => simp [loop, this]
  have e : loop p.cbs.length p.cbs p = (front.map (·.id) ++ [c.id], register p once, some .runtime) := by
    conv => lhs; arg 2; rw [hp]
    rw [loop_quiet _ front (c :: back) p rfl hf, loop, if_pos rfl, hc]
    simp only [call, hl]
  rw [check, e]

/-- C132 fails for a callback that removes itself or another one: the same. -/
theorem C132_removes_fails (p : Prim) (front back : List Cb) (c : Cb) (id : Nat) (hp : p.cbs = front ++ c :: back)
    (hf : ∀ d ∈ front, d.act = .quiet) (hc : c.act = .removes id) (hid : ∃ d ∈ p.cbs, d.id = id) :
    check p = (front.map (·.id) ++ [c.id], remove p id, some .runtime) := by
  have hne : (remove p id).cbs.length ≠ p.cbs.length := by
    obtain ⟨d, hd, rfl⟩ := hid
    intro e
    have := List.length_filter_eq_length_iff.1 e d hd
    simp at this
  have hl : ∀ rest, loop p.cbs.length rest (remove p id) = ([], remove p id, some .runtime) := by
    intro rest
    cases rest with
    | nil => simp [loop, hne]
    | cons d ds => simp [loop, hne]
  have e : loop p.cbs.length p.cbs p = (front.map (·.id) ++ [c.id], remove p id, some .runtime) := by
    conv => lhs; arg 2; rw [hp]
    rw [loop_quiet _ front (c :: back) p rfl hf, loop, if_pos rfl, hc]
    simp only [call, hl]
  rw [check, e]

/-! ### Examples -/

/-- Callback 0 keeps the value at or below 5, all others look. -/
def five : Acts := fun i _ n _ o => o = if i = 0 ∧ 5 < n then some 5 else none

/-- The run in which callback 0 corrects 10 to 5: callback 1 is told (10, 5), then (0, 10). -/
theorem C132_case : Assign five [0, 1] 0 10 5 [⟨0, 0, 10⟩, ⟨0, 10, 5⟩, ⟨1, 10, 5⟩, ⟨1, 0, 10⟩] ∧
    Assign five [1, 0] 0 10 5 [⟨1, 0, 10⟩, ⟨0, 0, 10⟩, ⟨1, 10, 5⟩, ⟨0, 10, 5⟩] := by
  constructor
  · refine .changed (by decide) ?_
    refine .assigns (y := 5) (v₁ := 5) (inner := [⟨0, 10, 5⟩, ⟨1, 10, 5⟩]) (log := [⟨1, 0, 10⟩]) (by simp [five]) (by decide) ?_ ?_
    · exact .quiet (by simp [five]) (.quiet (by simp [five]) (.done _ _ _))
    · exact .quiet (by simp [five]) (.done _ _ _)
  · refine .changed (by decide) (.quiet (by simp [five]) ?_)
    refine .assigns (y := 5) (v₁ := 5) (inner := [⟨1, 10, 5⟩, ⟨0, 10, 5⟩]) (log := []) (by simp [five]) (by decide) ?_ (.done _ _ _)
    exact .quiet (by simp [five]) (.quiet (by simp [five]) (.done _ _ _))

theorem C132_five : Limits five 0 5 ∧ ∀ j ∈ [1], Passive five j := by
  constructor
  · intro c n v o
    simp [five]
  · intro j hj c n v o h
    simp at hj
    subst hj
    simpa [five] using h

theorem C132_cases :
    check ⟨[⟨0, true, .quiet⟩, ⟨1, false, .quiet⟩], 2⟩ = ([0, 1], ⟨[⟨1, false, .quiet⟩], 2⟩, none) ∧
    check ⟨[⟨0, true, .quiet⟩, ⟨1, false, .raises .value⟩, ⟨2, false, .quiet⟩], 3⟩ =
      ([0, 1], ⟨[⟨0, true, .quiet⟩, ⟨1, false, .raises .value⟩, ⟨2, false, .quiet⟩], 3⟩, some .value) ∧
    check ⟨[⟨0, false, .removes 0⟩, ⟨1, false, .quiet⟩], 2⟩ = ([0], ⟨[⟨1, false, .quiet⟩], 2⟩, some .runtime) ∧
    check ⟨[⟨0, false, .adds true⟩], 1⟩ = ([0], ⟨[⟨0, false, .adds true⟩, ⟨1, true, .quiet⟩], 2⟩, some .runtime) := by
  decide

end Verif.Reentrant
