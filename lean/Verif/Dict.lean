/-!
Python dictionaries as association lists in insertion order (trusted behaviour of CPython:
insertion order is kept, assignment to an existing key keeps its position).
-/
namespace Verif

/-- Assignment to a Python dictionary: an existing key keeps its position. -/
def dset {α β : Type} [DecidableEq α] (d : List (α × β)) (k : α) (v : β) : List (α × β) :=
  if d.any (·.1 == k) then d.map (fun p => if p.1 = k then (k, v) else p) else d ++ [(k, v)]

/-- Dictionary look-up. -/
def dget {α β : Type} [DecidableEq α] (d : List (α × β)) (k : α) : Option β :=
  (d.find? (·.1 == k)).map (·.2)

/-- Removal of a key (`dict.pop(key, None)`). -/
def dpop {α β : Type} [DecidableEq α] (d : List (α × β)) (k : α) : List (α × β) :=
  d.filter (fun p => !(p.1 == k))

theorem mem_dset_keys {α β : Type} [DecidableEq α] (d : List (α × β)) (k : α) (v : β) (x : α) :
    (dset d k v).any (·.1 == x) = (d.any (·.1 == x) || (k == x)) := by
  unfold dset
  by_cases h : d.any (·.1 == k) = true
  · rw [if_pos h, List.any_map]
    have : ((fun (p : α × β) => p.1 == x) ∘ fun p => if p.1 = k then (k, v) else p)
        = fun p => p.1 == x := by
      funext p
      simp only [Function.comp]
      by_cases hp : p.1 = k
      · simp [hp]
      · simp [hp]
    rw [this]
    by_cases hx : k = x
    · subst hx; simp [h]
    · simp [hx]
  · rw [if_neg h, List.any_append]; simp

theorem dset_fresh {α β : Type} [DecidableEq α] (d : List (α × β)) (k : α) (v : β)
    (h : d.any (·.1 == k) = false) : dset d k v = d ++ [(k, v)] := by
  unfold dset; rw [if_neg (by rw [h]; decide)]

theorem dget_nil {α β : Type} [DecidableEq α] (k : α) : dget ([] : List (α × β)) k = none := rfl

theorem dget_cons {α β : Type} [DecidableEq α] (p : α × β) (d : List (α × β)) (k : α) :
    dget (p :: d) k = if p.1 = k then some p.2 else dget d k := by
  unfold dget
  rw [List.find?_cons]
  by_cases h : p.1 = k
  · simp [h]
  · have : (p.1 == k) = false := by simpa using h
    rw [this, if_neg h]

theorem dget_isSome {α β : Type} [DecidableEq α] (d : List (α × β)) (k : α) :
    d.any (·.1 == k) = (dget d k).isSome := by
  induction d with
  | nil => rfl
  | cons p d ih =>
    rw [dget_cons, List.any_cons, ih]
    by_cases h : p.1 = k
    · simp [h]
    · have : (p.1 == k) = false := by simpa using h
      simp [h]

theorem dget_none_iff {α β : Type} [DecidableEq α] (d : List (α × β)) (k : α) :
    dget d k = none ↔ d.any (·.1 == k) = false := by
  rw [dget_isSome]; cases dget d k <;> simp

theorem dget_append {α β : Type} [DecidableEq α] (d e : List (α × β)) (k : α) :
    dget (d ++ e) k = (dget d k).or (dget e k) := by
  induction d with
  | nil => simp [dget_nil]
  | cons p d ih =>
    rw [List.cons_append, dget_cons, dget_cons, ih]
    by_cases h : p.1 = k <;> simp [h]

/-- Looking up after an assignment. -/
theorem dget_dset {α β : Type} [DecidableEq α] (d : List (α × β)) (k x : α) (v : β) :
    dget (dset d k v) x = if k = x then some v else dget d x := by
  unfold dset
  by_cases h : d.any (·.1 == k) = true
  · rw [if_pos h]
    have key : ∀ d : List (α × β), d.any (·.1 == k) = true ∨ k ≠ x →
        dget (d.map (fun p => if p.1 = k then (k, v) else p)) x
          = if k = x then some v else dget d x := by
      intro d
      induction d with
      | nil => intro h; rcases h with h | h; · simp at h
               · simp [h, dget_nil]
      | cons p d ih =>
        intro h
        rw [List.map_cons, dget_cons, dget_cons]
        by_cases hp : p.1 = k
        · simp only [hp, if_true]
          by_cases hk : k = x
          · simp [hk]
          · simp only [hk, if_false]
            rw [ih (Or.inr hk), if_neg hk]
        · simp only [hp, if_false]
          by_cases hx : p.1 = x
          · have : k ≠ x := fun e => hp (by rw [hx, e])
            simp [hx, this]
          · simp only [hx, if_false]
            apply ih
            rcases h with h | h
            · left
              rw [List.any_cons] at h
              have : (p.1 == k) = false := by simpa using hp
              rw [this] at h; simpa using h
            · exact Or.inr h
    exact key d (Or.inl h)
  · rw [if_neg h, dget_append, dget_cons, dget_nil]
    have hn : dget d k = none := (dget_none_iff d k).mpr (Bool.eq_false_iff.mpr h)
    by_cases hk : k = x
    · subst hk; simp [hn]
    · simp [hk]

theorem dget_dset_self {α β : Type} [DecidableEq α] (d : List (α × β)) (k : α) (v : β) :
    dget (dset d k v) k = some v := by rw [dget_dset, if_pos rfl]

theorem dget_dset_ne {α β : Type} [DecidableEq α] (d : List (α × β)) (k x : α) (v : β) (h : k ≠ x) :
    dget (dset d k v) x = dget d x := by rw [dget_dset, if_neg h]

theorem dget_dpop {α β : Type} [DecidableEq α] (d : List (α × β)) (k x : α) :
    dget (dpop d k) x = if k = x then none else dget d x := by
  unfold dpop
  induction d with
  | nil => simp [dget_nil]
  | cons p d ih =>
    rw [List.filter_cons]
    by_cases hp : p.1 = k
    · simp only [hp, beq_self_eq_true, Bool.not_true, Bool.false_eq_true, if_false, ih, dget_cons]
      by_cases hk : k = x <;> simp [hk]
    · have : (!(p.1 == k)) = true := by simpa using hp
      rw [if_pos this, dget_cons, dget_cons, ih]
      by_cases hx : p.1 = x
      · have : k ≠ x := fun e => hp (by rw [hx, e])
        simp [hx, this]
      · simp [hx]

theorem dget_mem {α β : Type} [DecidableEq α] {d : List (α × β)} {k : α} {v : β}
    (h : dget d k = some v) : (k, v) ∈ d := by
  unfold dget at h
  rw [Option.map_eq_some_iff] at h
  obtain ⟨p, hp, rfl⟩ := h
  have h1 := List.mem_of_find?_eq_some hp
  have h2 := List.find?_some hp
  have : p.1 = k := by simpa using h2
  subst this; exact h1

theorem dset_keys {α β : Type} [DecidableEq α] (d : List (α × β)) (k : α) (v : β) :
    (dset d k v).map Prod.fst = if d.any (·.1 == k) then d.map Prod.fst else d.map Prod.fst ++ [k] := by
  unfold dset
  split
  · rw [List.map_map]
    apply List.map_congr_left
    intro p _
    simp only [Function.comp]
    split
    · rename_i h; exact h.symm
    · rfl
  · simp

theorem mem_dset {α β : Type} [DecidableEq α] {d : List (α × β)} {k : α} {v : β} {p : α × β}
    (h : p ∈ dset d k v) : p ∈ d ∨ p = (k, v) := by
  unfold dset at h
  split at h
  · obtain ⟨q, hq, rfl⟩ := List.mem_map.mp h
    split
    · exact Or.inr rfl
    · exact Or.inl hq
  · rcases List.mem_append.mp h with h | h
    · exact Or.inl h
    · exact Or.inr (List.mem_singleton.mp h)

end Verif
