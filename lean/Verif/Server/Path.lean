import Verif.Split

/-!
# Path keys and JSON traversal (C57, C58)

`path_has_part` and `parse_path_parts` of `util.py` 49-69; `traverse_dict` and
`json_handler` of `net/server/json.py` 31-104. Strings are lists of
characters.
-/

namespace Verif.Server

/-! ## Path keys -/

/-- `path_has_part` (`util.py` 49-53). -/
def hasPart (path key : List Char) : Bool := key ∈ (splitOn '/' path).tail

/-- The loop of `parse_path_parts` (`util.py` 62-69). -/
def partsLoop (key : List Char) : Bool → List (List Char) → List (List Char)
  | _, [] => []
  | found, item :: items =>
    if found then item :: partsLoop key found items
    else if item = key then partsLoop key true items
    else partsLoop key found items

/-- `parse_path_parts` (`util.py` 56-69). -/
def pathParts (path key : List Char) : List (List Char) :=
  partsLoop key false (splitOn '/' path).tail

theorem partsLoop_found (key : List Char) (items : List (List Char)) :
    partsLoop key true items = items := by
  induction items with
  | nil => rfl
  | cons x xs ih => rw [partsLoop, if_pos rfl, ih]

theorem partsLoop_skip (key : List Char) (before items : List (List Char)) (h : key ∉ before) :
    partsLoop key false (before ++ items) = partsLoop key false items := by
  induction before with
  | nil => rfl
  | cons x xs ih =>
    have hx : x ≠ key := fun e => h (e ▸ List.mem_cons_self)
    rw [List.cons_append, partsLoop, if_neg (by simp), if_neg hx,
      ih (fun hm => h (List.mem_cons_of_mem _ hm))]

/-- The path made of a first piece and components: `root/a/b/c`. -/
def pathOf (root : List Char) (parts : List (List Char)) : List Char :=
  joinWith '/' (root :: parts)

/-- Every path is made of pieces without a slash, in one way. -/
theorem path_forms (path : List Char) :
    ∃ root parts, path = pathOf root parts ∧ (∀ p ∈ root :: parts, '/' ∉ p) ∧
      ∀ root' parts', path = pathOf root' parts' → (∀ p ∈ root' :: parts', '/' ∉ p) →
        root' = root ∧ parts' = parts := by
  cases h : splitOn '/' path with
  | nil => exact absurd h (splitOn_ne_nil _ _)
  | cons r ps =>
    refine ⟨r, ps, ?_, ?_, ?_⟩
    · rw [pathOf, ← h, joinWith_splitOn]
    · rw [← h]; exact splitOn_free '/' path
    · intro r' ps' he hf
      have := splitOn_joinWith '/' r' ps' hf
      rw [← pathOf, ← he, h] at this
      injection this with h1 h2
      exact ⟨h1.symm, h2.symm⟩

/-- C57: a key is reported present exactly when it is one of the components
after the first slash. -/
theorem C57_present (root key : List Char) (parts : List (List Char))
    (hf : ∀ p ∈ root :: parts, '/' ∉ p) :
    hasPart (pathOf root parts) key = true ↔ key ∈ parts := by
  rw [hasPart, pathOf, splitOn_joinWith '/' root parts hf, List.tail_cons, decide_eq_true_iff]

/-- C57: splitting at a key yields exactly the components after its first
occurrence. -/
theorem C57_parts (root key : List Char) (before after : List (List Char))
    (hf : ∀ p ∈ root :: (before ++ key :: after), '/' ∉ p) (hk : key ∉ before) :
    pathParts (pathOf root (before ++ key :: after)) key = after := by
  rw [pathParts, pathOf, splitOn_joinWith '/' root _ hf, List.tail_cons,
    partsLoop_skip key before _ hk, partsLoop, if_neg (by simp), if_pos rfl, partsLoop_found]

/-- C57: without the key there is nothing. -/
theorem C57_absent (path key : List Char) (h : hasPart path key = false) :
    pathParts path key = [] := by
  rw [hasPart, decide_eq_false_iff_not] at h
  rw [pathParts]
  have := partsLoop_skip key (splitOn '/' path).tail [] h
  rw [List.append_nil] at this
  rw [this]; rfl

/-- C57 for the whole path, without naming its pieces: the key is present
exactly when the path reads `…/key` or `…/key/…`, for a key without a slash;
a key with one is never present. -/
theorem C57_present_text (path key : List Char) :
    hasPart path key = true ↔
      '/' ∉ key ∧ ∃ a b, path = a ++ '/' :: key ++ b ∧ (b = [] ∨ ∃ b', b = '/' :: b') := by
  obtain ⟨root, parts, hp, hf, _⟩ := path_forms path
  subst hp
  rw [C57_present root key parts hf]
  constructor
  · intro hk
    refine ⟨hf key (List.mem_cons_of_mem _ hk), ?_⟩
    obtain ⟨before, after, rfl⟩ := List.append_of_mem hk
    have hj : ∀ (root : List Char) (before : List (List Char)),
        ∃ a, joinWith '/' (root :: (before ++ key :: after))
          = a ++ '/' :: joinWith '/' (key :: after) := by
      intro root before
      induction before generalizing root with
      | nil => exact ⟨root, rfl⟩
      | cons x xs ih =>
        obtain ⟨a, ha⟩ := ih x
        refine ⟨root ++ '/' :: a, ?_⟩
        show root ++ '/' :: joinWith '/' (x :: (xs ++ key :: after)) = _
        rw [ha]; simp
    obtain ⟨a, ha⟩ := hj root before
    refine ⟨a, ?_⟩
    rw [pathOf, ha]
    cases after with
    | nil => exact ⟨[], by simp [joinWith], Or.inl rfl⟩
    | cons y ys =>
      exact ⟨'/' :: joinWith '/' (y :: ys), by simp [joinWith], Or.inr ⟨_, rfl⟩⟩
  · rintro ⟨hk, a, b, hab, hb⟩
    have hs : splitOn '/' (pathOf root parts) = root :: parts := splitOn_joinWith '/' root parts hf
    have hmem : ∀ a : List Char, key ∈ (splitOn '/' (a ++ '/' :: key ++ b)).tail := by
      have htail : key ∈ splitOn '/' (key ++ b) := by
        rcases hb with rfl | ⟨b', rfl⟩
        · rw [List.append_nil, splitOn_none '/' key hk]; exact List.mem_cons_self
        · rw [splitOn_append '/' key b' hk]; exact List.mem_cons_self
      intro a
      induction a with
      | nil =>
        rw [List.nil_append, List.cons_append, splitOn_cons_sep, List.tail_cons]
        exact htail
      | cons c cs ih =>
        by_cases hc : c = '/'
        · subst hc
          rw [List.cons_append, List.cons_append, splitOn_cons_sep, List.tail_cons]
          exact List.mem_of_mem_tail ih
        · rw [List.cons_append, List.cons_append, splitOn, if_neg hc]
          cases he : splitOn '/' (cs ++ '/' :: key ++ b) with
          | nil => exact absurd he (splitOn_ne_nil _ _)
          | cons p ps =>
            rw [he, List.tail_cons] at ih
            exact ih
    have := hmem a
    rw [← hab, hs, List.tail_cons] at this
    exact this

/-- The components of `/json/a/json/b` after the key. -/
example : pathParts "/json/a/json/b".toList "json".toList
    = ["a".toList, "json".toList, "b".toList] := by decide +kernel

/-- A path that does not begin with a slash: its first piece is never a key. -/
example : hasPart "json/a".toList "json".toList = false ∧
    hasPart "x/json".toList "json".toList = true := by decide +kernel

end Verif.Server
