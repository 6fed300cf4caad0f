import Verif.Base
/-!
`split` and `join` with a one-element separator, for byte strings and character strings.
-/
namespace Verif
variable {α : Type} [DecidableEq α]

/-- `s.split(c)`: the pieces between the separators; never empty. -/
def splitOn (c : α) : List α → List (List α)
  | [] => [[]]
  | b :: bs =>
    if b = c then [] :: splitOn c bs
    else
      match splitOn c bs with
      | [] => [[b]]
      | p :: ps => (b :: p) :: ps

/-- `c.join(pieces)`. -/
def joinWith (c : α) : List (List α) → List α
  | [] => []
  | [p] => p
  | p :: q :: ps => p ++ c :: joinWith c (q :: ps)

theorem splitOn_ne_nil (c : α) (s : List α) : splitOn c s ≠ [] := by
  cases s with
  | nil => simp [splitOn]
  | cons b bs =>
    unfold splitOn
    split
    · simp
    · split <;> simp

/-- The piece before the first separator. -/
theorem splitOn_append (c : α) (a rest : List α) (h : c ∉ a) :
    splitOn c (a ++ c :: rest) = a :: splitOn c rest := by
  induction a with
  | nil => simp [splitOn]
  | cons b bs ih =>
    have hb : b ≠ c := fun e => h (e ▸ List.mem_cons_self)
    have := ih (fun hm => h (List.mem_cons_of_mem _ hm))
    rw [List.cons_append, splitOn, if_neg hb, this]

theorem splitOn_none (c : α) (a : List α) (h : c ∉ a) : splitOn c a = [a] := by
  induction a with
  | nil => rfl
  | cons b bs ih =>
    have hb : b ≠ c := fun e => h (e ▸ List.mem_cons_self)
    have := ih (fun hm => h (List.mem_cons_of_mem _ hm))
    rw [splitOn, if_neg hb, this]

/-- Splitting what was joined. -/
theorem splitOn_joinWith (c : α) (p : List α) (ps : List (List α)) (h : ∀ q ∈ p :: ps, c ∉ q) :
    splitOn c (joinWith c (p :: ps)) = p :: ps := by
  induction ps generalizing p with
  | nil => exact splitOn_none c p (h p List.mem_cons_self)
  | cons q qs ih =>
    rw [joinWith, splitOn_append c p _ (h p List.mem_cons_self),
      ih q (fun r hr => h r (List.mem_cons_of_mem _ hr))]

/-- No piece holds the separator. -/
theorem splitOn_free (c : α) (s : List α) : ∀ p ∈ splitOn c s, c ∉ p := by
  induction s with
  | nil => intro p hp; simp [splitOn] at hp; simp [hp]
  | cons b bs ih =>
    intro p hp
    unfold splitOn at hp
    split at hp
    · rcases List.mem_cons.mp hp with rfl | hp
      · simp
      · exact ih p hp
    · rename_i hb
      split at hp
      · rename_i he
        exact absurd he (splitOn_ne_nil c bs)
      · rename_i q qs he
        rcases List.mem_cons.mp hp with rfl | hp
        · intro hm
          rcases List.mem_cons.mp hm with e | hm
          · exact hb e.symm
          · exact ih q (by rw [he]; exact List.mem_cons_self) hm
        · exact ih p (by rw [he]; exact List.mem_cons_of_mem _ hp)

/-- Joining what was split. -/
theorem joinWith_splitOn (c : α) (s : List α) : joinWith c (splitOn c s) = s := by
  induction s with
  | nil => rfl
  | cons b bs ih =>
    unfold splitOn
    split
    · rename_i hb
      subst hb
      cases he : splitOn b bs with
      | nil => exact absurd he (splitOn_ne_nil b bs)
      | cons q qs =>
        rw [he] at ih
        rw [joinWith, ih]
        rfl
    · cases he : splitOn c bs with
      | nil => exact absurd he (splitOn_ne_nil c bs)
      | cons q qs =>
        rw [he] at ih
        cases qs with
        | nil => rw [← ih]; rfl
        | cons r rs => rw [← ih]; rfl

theorem splitOn_cons_sep (c : α) (s : List α) : splitOn c (c :: s) = [] :: splitOn c s := by
  rw [splitOn, if_pos rfl]

end Verif
