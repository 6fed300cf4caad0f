import Verif.Server.Path
import Verif.Dict

/-!
# Traversing the exported JSON data (C58)

`traverse_dict` and `json_handler` of `net/server/json.py` 31-104.

A document is made of dictionaries, atoms (text, numbers, lists: whatever
cannot be indexed by a key) and callables. Simplifications: what a callable
does is a value, or an exception; the texts of the two error messages are
left open (`Msgs`).
-/

namespace Verif.Server

/-- What the exported data is made of. -/
inductive Val where
  | text (s : List Char)
  | num (n : Int)
  | list (vs : List Val)
  | dict (kvs : List (List Char × Val))
  /-- a callable that returns a value -/
  | call (v : Val)
  /-- a callable that raises -/
  | bad (e : PyErr)

/-- The texts of the error messages (51, 59). -/
structure Msgs where
  cantIndex : Val → List Char
  notFound : List (List Char) → List Char

/-- `if callable(data): data = data()` (44-45, 65-66). -/
def force : Val → Except PyErr Val
  | .call v => .ok v
  | .bad e => .error e
  | v => .ok v

/-- The error dictionary (34, 49-51, 57-59). -/
def errorVal (part : List Char) (current : List (List Char)) (msg : List Char) : Val :=
  .dict [("path".toList,
          .dict [("part".toList, .text part), ("current".toList, .text (joinWith '.' current))]),
         ("error".toList, .text msg)]

/-- `traverse_dict` (`json.py` 31-68): `curr` is `curr_path`. -/
def traverse (m : Msgs) (curr : List (List Char)) (data : Val) :
    List (List Char) → Except PyErr Val
  | [] => force data
  | part :: parts =>
    if part = [] then traverse m curr data parts
    else
      match force data with
      | .error e => .error e
      | .ok (.dict kvs) =>
        match dget kvs part with
        | none => force (errorVal part (curr ++ [part]) (m.notFound (kvs.map (·.1))))
        | some v => traverse m (curr ++ [part]) v parts
      | .ok v => force (errorVal part (curr ++ [part]) (m.cantIndex v))

/-! ## The element a path addresses, stated by itself -/

/-- `At v path x`: following the keys of `path` from `v`, through
dictionaries and through one callable at each step, leads to `x`. -/
inductive At : Val → List (List Char) → Val → Prop where
  | here {v x : Val} : force v = .ok x → At v [] x
  | key {v w x : Val} {kvs : List (List Char × Val)} {k : List Char} {path : List (List Char)} :
      force v = .ok (.dict kvs) → dget kvs k = some w → At w path x → At v (k :: path) x

/-- `Upto v path w`: following the keys of `path` leads to `w`, before it is
called. -/
inductive Upto : Val → List (List Char) → Val → Prop where
  | here {v : Val} : Upto v [] v
  | key {v w x : Val} {kvs : List (List Char × Val)} {k : List Char} {path : List (List Char)} :
      force v = .ok (.dict kvs) → dget kvs k = some w → Upto w path x → Upto v (k :: path) x

theorem traverse_skip (m : Msgs) (curr : List (List Char)) (v : Val) (parts : List (List Char)) :
    traverse m curr v parts = traverse m curr v (parts.filter (· ≠ [])) := by
  induction parts generalizing curr v with
  | nil => rfl
  | cons p ps ih =>
    by_cases hp : p = []
    · subst hp
      rw [traverse, if_pos rfl, ih]
      simp
    · rw [List.filter_cons_of_pos (by simpa using hp), traverse, if_neg hp, traverse, if_neg hp]
      cases force v with
      | error e => rfl
      | ok d =>
        cases d with
        | dict kvs =>
          dsimp only
          cases dget kvs p with
          | none => rfl
          | some w => exact ih _ _
        | _ => rfl

theorem traverse_at (m : Msgs) {v x : Val} {path : List (List Char)} (h : At v path x)
    (curr : List (List Char)) (hne : ∀ p ∈ path, p ≠ []) : traverse m curr v path = .ok x := by
  induction h generalizing curr with
  | here hf => exact hf
  | key hf hd _ ih =>
    rw [traverse, if_neg (hne _ List.mem_cons_self), hf]
    dsimp only
    rw [hd]
    exact ih (curr ++ [_]) (fun p hp => hne p (List.mem_cons_of_mem _ hp))

theorem traverse_upto (m : Msgs) {v w : Val} {path : List (List Char)} (h : Upto v path w)
    (curr rest : List (List Char)) (hne : ∀ p ∈ path, p ≠ []) :
    traverse m curr v (path ++ rest) = traverse m (curr ++ path) w rest := by
  induction h generalizing curr with
  | here => simp
  | key hf hd _ ih =>
    rw [List.cons_append, traverse, if_neg (hne _ List.mem_cons_self), hf]
    dsimp only
    rw [hd]
    dsimp only
    rw [ih (curr ++ [_]) (fun p hp => hne p (List.mem_cons_of_mem _ hp))]
    simp

/-- The parts a traversal looks at. -/
def keysOf (path : List (List Char)) : List (List Char) := path.filter (fun p => !p.isEmpty)

theorem traverse_keys (m : Msgs) (curr : List (List Char)) (v : Val) (path : List (List Char)) :
    traverse m curr v path = traverse m curr v (keysOf path) := by
  rw [traverse_skip]
  congr 1
  apply List.filter_congr
  intro p _
  cases p <;> simp

theorem keysOf_ne (path : List (List Char)) : ∀ p ∈ keysOf path, p ≠ [] := by
  intro p hp
  have := (List.mem_filter.mp hp).2
  intro he
  rw [he] at this
  simp at this

/-- C58: a path that addresses an element gives that element; empty parts are
ignored. -/
theorem C58_found (m : Msgs) (v x : Val) (path : List (List Char)) (h : At v (keysOf path) x) :
    traverse m [] v path = .ok x := by
  rw [traverse_keys]
  exact traverse_at m h [] (keysOf_ne path)

/-- A value a key can be looked up in, and is found. -/
def Has (d : Val) (k : List Char) : Prop := ∃ kvs w, d = .dict kvs ∧ dget kvs k = some w

/-- C58: a path that fails gives an error dictionary that names the failing
step: the key that was not found, or that met something that is no dictionary,
and the keys up to it. -/
theorem C58_missing (m : Msgs) (v w d : Val) (path before after : List (List Char))
    (k : List Char) (hk : keysOf path = before ++ k :: after)
    (hu : Upto v before w) (hf : force w = .ok d) (hn : ¬ Has d k) :
    ∃ msg, traverse m [] v path = .ok (errorVal k (before ++ [k]) msg) := by
  rw [traverse_keys, hk]
  have hne : ∀ p ∈ before, p ≠ [] := fun p hp =>
    keysOf_ne path p (by rw [hk]; exact List.mem_append_left _ hp)
  have hk0 : k ≠ [] := keysOf_ne path k (by rw [hk]; simp)
  rw [traverse_upto m hu [] _ hne, List.nil_append, traverse, if_neg hk0, hf]
  cases d with
  | dict kvs =>
    dsimp only
    cases hd : dget kvs k with
    | some x => exact absurd ⟨kvs, x, rfl, hd⟩ hn
    | none => exact ⟨_, rfl⟩
  | text _ => exact ⟨_, rfl⟩
  | num _ => exact ⟨_, rfl⟩
  | list _ => exact ⟨_, rfl⟩
  | call _ => exact ⟨_, rfl⟩
  | bad _ => exact ⟨_, rfl⟩

/-- Either the path leads to an element, or it has a first step that fails, or
a callable on the way raises. -/
theorem path_cases (v : Val) (path : List (List Char)) :
    (∃ x, At v path x) ∨
    (∃ before k after w d, path = before ++ k :: after ∧ Upto v before w ∧ force w = .ok d ∧
      ¬ Has d k) ∨
    (∃ before after w e, path = before ++ after ∧ Upto v before w ∧ force w = .error e) := by
  induction path generalizing v with
  | nil =>
    cases hf : force v with
    | ok x => exact Or.inl ⟨x, At.here hf⟩
    | error e => exact Or.inr (Or.inr ⟨[], [], v, e, rfl, Upto.here, hf⟩)
  | cons k ks ih =>
    cases hf : force v with
    | error e => exact Or.inr (Or.inr ⟨[], k :: ks, v, e, rfl, Upto.here, hf⟩)
    | ok d =>
      by_cases hh : Has d k
      · obtain ⟨kvs, w, rfl, hd⟩ := hh
        rcases ih w with ⟨x, hx⟩ | ⟨b, k', a, w', d', rfl, hu, hf', hn⟩ | ⟨b, a, w', e, rfl, hu, he⟩
        · exact Or.inl ⟨x, At.key hf hd hx⟩
        · exact Or.inr (Or.inl ⟨k :: b, k', a, w', d', rfl, Upto.key hf hd hu, hf', hn⟩)
        · exact Or.inr (Or.inr ⟨k :: b, a, w', e, rfl, Upto.key hf hd hu, he⟩)
      · exact Or.inr (Or.inl ⟨[], k, ks, v, d, rfl, Upto.here, hf, hh⟩)

/-- C58: traversal never raises, unless a callable it meets on the way does:
then that exception comes out. Together with the two theorems above this
covers every document and path. -/
theorem C58_total (m : Msgs) (v : Val) (path : List (List Char)) :
    (∃ x, At v (keysOf path) x ∧ traverse m [] v path = .ok x) ∨
    (∃ before k after w d msg, keysOf path = before ++ k :: after ∧ Upto v before w ∧
      force w = .ok d ∧ ¬ Has d k ∧
      traverse m [] v path = .ok (errorVal k (before ++ [k]) msg)) ∨
    (∃ before after w e, keysOf path = before ++ after ∧ Upto v before w ∧
      force w = .error e ∧ traverse m [] v path = .error e) := by
  rcases path_cases v (keysOf path) with ⟨x, hx⟩ | ⟨b, k, a, w, d, hk, hu, hf, hn⟩ |
    ⟨b, a, w, e, hk, hu, he⟩
  · exact Or.inl ⟨x, hx, C58_found m v x path hx⟩
  · obtain ⟨msg, hm⟩ := C58_missing m v w d path b a k hk hu hf hn
    exact Or.inr (Or.inl ⟨b, k, a, w, d, msg, hk, hu, hf, hn, hm⟩)
  · refine Or.inr (Or.inr ⟨b, a, w, e, hk, hu, he, ?_⟩)
    have hne : ∀ p ∈ b, p ≠ [] := fun p hp =>
      keysOf_ne path p (by rw [hk]; exact List.mem_append_left _ hp)
    rw [traverse_keys, hk, traverse_upto m hu [] a hne]
    cases a with
    | nil => exact he
    | cons k ks =>
      have hk0 : k ≠ [] := keysOf_ne path k (by rw [hk]; simp)
      rw [traverse, if_neg hk0, he]

/-- C58: the element under an empty key cannot be reached: the path that ends
with it gives the dictionary itself. -/
theorem C58_empty_key_fails (m : Msgs) (kvs : List (List Char × Val)) :
    traverse m [] (.dict kvs) [[]] = .ok (.dict kvs) := rfl

/-- C58: a missing element cannot be told from an element that looks like the
error: the document that holds the error dictionary under the key answers
alike. -/
theorem C58_ambiguous_fails (m : Msgs) (k : List Char) (hk : k ≠ []) :
    ∃ msg, traverse m [] (.dict []) [k] = .ok (errorVal k [k] msg) ∧
      traverse m [] (.dict [(k, errorVal k [k] msg)]) [k] = .ok (errorVal k [k] msg) := by
  refine ⟨m.notFound [], ?_, ?_⟩
  · simp [traverse, hk, force, dget, errorVal]
  · simp [traverse, hk, force, dget, errorVal]

/-- `json_handler` (`json.py` 86-104): the value that is encoded. -/
def answer (m : Msgs) (data : Val) (path : List Char) : Except PyErr Val :=
  match traverse m [] data (pathParts path "json".toList) with
  | .error e => .error e
  | .ok (.dict kvs) => .ok (.dict kvs)
  | .ok v => .ok (.dict [("__raw__".toList, v)])

/-- C58: the answer to a request for `/json/k1/k2/…` is the element the keys
address; if it is no dictionary it comes under the key `__raw__`. -/
theorem C58_request (m : Msgs) (data x : Val) (keys : List (List Char))
    (hk : ∀ k ∈ keys, '/' ∉ k ∧ k ≠ []) (h : At data keys x) :
    answer m data (pathOf [] ("json".toList :: keys)) =
      .ok (match x with | .dict kvs => .dict kvs | v => .dict [("__raw__".toList, v)]) := by
  have hp : pathParts (pathOf [] ("json".toList :: keys)) "json".toList = keys := by
    apply C57_parts [] "json".toList [] keys
    · intro p hp
      rcases List.mem_cons.mp hp with rfl | hp
      · simp
      · rcases List.mem_cons.mp hp with rfl | hp
        · decide
        · exact (hk p hp).1
    · simp
  have hkeys : keysOf keys = keys := by
    apply List.filter_eq_self.mpr
    intro k hk'
    have := (hk k hk').2
    cases k with
    | nil => exact absurd rfl this
    | cons _ _ => rfl
  rw [answer, hp, C58_found m data x keys (by rw [hkeys]; exact h)]
  cases x <;> rfl

/-- A document with a callable, and a request through it. -/
def sampleDoc : Val :=
  .dict [("a".toList, .call (.dict [("b".toList, .num 3)])), ("c".toList, .list [.num 1])]

example (m : Msgs) : traverse m [] sampleDoc ["a".toList, [], "b".toList] = .ok (.num 3) := rfl

example : At sampleDoc ["a".toList, "b".toList] (.num 3) :=
  At.key rfl rfl (At.key rfl rfl (At.here rfl))

example (m : Msgs) : ∃ msg, traverse m [] sampleDoc ["c".toList, "0".toList]
    = .ok (errorVal "0".toList ["c".toList, "0".toList] msg) := ⟨_, rfl⟩

end Verif.Server
