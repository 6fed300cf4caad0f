import Verif.Base
import Verif.Dict

/-!
C83: finding connections, tasks and structs from an application (net/arbiter/info.py 199–257, net/manager.py 47–51).

Objects are numbers, `kind` says which are instances of the type asked for. The names a search of the namespace
gives for the names and the pattern asked for (vcorelib) are a list, `found`.
-/
namespace Verif.Arbiter.Search
open Verif

structure Info where
  /-- `connections` -/
  conns : List (String × Nat)
  /-- the connections of the manager, `_conns` -/
  managed : List Nat

/-- The first loop of `search`, 212–216. -/
def named (a : Info) (kind : Nat → Bool) : List String → Except PyErr (List Nat)
  | [] => .ok []
  | n :: ns =>
    match dget a.conns n with
    | none => .error .key
    | some c => (named a kind ns).map (fun l => if kind c then c :: l else l)

/-- The second loop, 220–224: connections of the manager that were not seen. -/
def others (kind : Nat → Bool) : List Nat → List Nat → List Nat
  | _, [] => []
  | seen, c :: cs => if kind c ∧ c ∉ seen then c :: others kind (c :: seen) cs else others kind seen cs

/-- `search`, 199–224. `dflt`: the pattern is the default one. -/
def search (a : Info) (kind : Nat → Bool) (found : List String) (dflt : Bool) : Except PyErr (List Nat) :=
  (named a kind found).map fun l => if dflt then l ++ others kind l a.managed else l

/-- `single`, 247–257. -/
def single (a : Info) (kind : Nat → Bool) (found : List String) (dflt : Bool) : Except PyErr Nat :=
  match search a kind found dflt with
  | .error e => .error e
  | .ok l =>
    match l with
    | [x] => .ok x
    | _ => .error .assertion

/-- `search_tasks`, 226–233, and `search_structs`, 235–245. -/
def searchNamed (items : List (String × Nat)) (kind : Nat → Bool) (hit : String → Bool) : List Nat :=
  (items.filter (fun x => hit x.1 && kind x.2)).map (·.2)

/-! ### Lemmas -/

theorem dget_none (d : List (String × Nat)) (n : String) : dget d n = none ↔ n ∉ d.map (·.1) := by
  rw [dget_none_iff, List.any_eq_false, List.mem_map]
  constructor
  · rintro h ⟨x, hx, rfl⟩
    exact h x hx (by simp)
  · intro h x hx he
    exact h ⟨x, hx, by simpa using he⟩

theorem named_ok (a : Info) (kind : Nat → Bool) (ns : List String) (h : ∀ n ∈ ns, (dget a.conns n).isSome) :
    named a kind ns = .ok ((ns.filterMap (dget a.conns)).filter kind) := by
  induction ns with
  | nil => rfl
  | cons n ns ih =>
    obtain ⟨c, hc⟩ := Option.isSome_iff_exists.mp (h n List.mem_cons_self)
    rw [named, hc, ih (fun m hm => h m (List.mem_cons_of_mem _ hm)), List.filterMap_cons, hc, List.filter_cons]
    rfl

theorem named_err (a : Info) (kind : Nat → Bool) (ns : List String) (n : String) (hn : n ∈ ns) (h : dget a.conns n = none) :
    named a kind ns = .error .key := by
  induction ns with
  | nil => cases hn
  | cons m ns ih =>
    rw [named]
    cases hm : dget a.conns m with
    | none => rfl
    | some c =>
      have : n ∈ ns := by
        rcases List.mem_cons.mp hn with rfl | h'
        · rw [h] at hm; cases hm
        · exact h'
      rw [ih this]; rfl

theorem mem_others (kind : Nat → Bool) (cs seen : List Nat) (x : Nat) :
    x ∈ others kind seen cs ↔ x ∈ cs ∧ kind x = true ∧ x ∉ seen := by
  induction cs generalizing seen with
  | nil => simp [others]
  | cons c cs ih =>
    rw [others]
    by_cases hc : kind c = true ∧ c ∉ seen
    · rw [if_pos hc, List.mem_cons, ih]
      constructor
      · rintro (rfl | ⟨h1, h2, h3⟩)
        · exact ⟨List.mem_cons_self, hc.1, hc.2⟩
        · exact ⟨List.mem_cons_of_mem _ h1, h2, fun h => h3 (List.mem_cons_of_mem _ h)⟩
      · rintro ⟨h1, h2, h3⟩
        by_cases hx : x = c
        · exact Or.inl hx
        · refine Or.inr ⟨(List.mem_cons.mp h1).resolve_left hx, h2, fun h => ?_⟩
          rcases List.mem_cons.mp h with h | h
          · exact hx h
          · exact h3 h
    · rw [if_neg hc, ih]
      constructor
      · rintro ⟨h1, h2, h3⟩; exact ⟨List.mem_cons_of_mem _ h1, h2, h3⟩
      · rintro ⟨h1, h2, h3⟩
        rcases List.mem_cons.mp h1 with rfl | h1
        · exact absurd ⟨h2, h3⟩ hc
        · exact ⟨h1, h2, h3⟩

theorem others_nodup (kind : Nat → Bool) (cs seen : List Nat) : (others kind seen cs).Nodup := by
  induction cs generalizing seen with
  | nil => exact .nil
  | cons c cs ih =>
    rw [others]
    split
    · rw [List.nodup_cons]
      exact ⟨fun h => ((mem_others kind cs (c :: seen) c).mp h).2.2 List.mem_cons_self, ih _⟩
    · exact ih _

/-! ### Claims -/

/-- A search raises exactly when a name it finds is no connection; else it gives exactly the connections of the
kind that are registered under a name that was found or, with the default pattern, managed. -/
theorem C83_found (a : Info) (kind : Nat → Bool) (found : List String) (dflt : Bool) :
    ((∃ e, search a kind found dflt = .error e) ↔ ∃ n ∈ found, n ∉ a.conns.map (·.1)) ∧
    ∀ l, search a kind found dflt = .ok l → ∀ x, x ∈ l ↔
      kind x = true ∧ ((∃ n ∈ found, dget a.conns n = some x) ∨ (dflt = true ∧ x ∈ a.managed)) := by
  by_cases h : ∀ n ∈ found, (dget a.conns n).isSome
  · have e := named_ok a kind found h
    constructor
    · constructor
      · rintro ⟨e', he⟩
        rw [search, e] at he
        cases he
      · rintro ⟨n, hn, hm⟩
        have h1 := h n hn
        rw [(dget_none a.conns n).mpr hm] at h1
        cases h1
    · intro l hl x
      rw [search, e] at hl
      have hl' := Except.ok.inj hl
      subst hl'
      have hmem : x ∈ (found.filterMap (dget a.conns)).filter kind ↔ kind x = true ∧ ∃ n ∈ found, dget a.conns n = some x := by
        rw [List.mem_filter, List.mem_filterMap, and_comm]
      cases dflt with
      | false =>
        simp only [Bool.false_eq_true, if_false, false_and, or_false]
        exact hmem
      | true =>
        simp only [if_true, List.mem_append, mem_others, hmem, true_and]
        constructor
        · rintro (⟨h1, h2⟩ | ⟨h1, h2, -⟩)
          · exact ⟨h1, Or.inl h2⟩
          · exact ⟨h2, Or.inr h1⟩
        · rintro ⟨h1, h2⟩
          by_cases h3 : ∃ n ∈ found, dget a.conns n = some x
          · exact Or.inl ⟨h1, h3⟩
          · exact Or.inr ⟨h2.resolve_left h3, h1, fun h => h3 h.2⟩
  · obtain ⟨n, hn⟩ := Classical.not_forall.mp h
    obtain ⟨hn, hx⟩ := Classical.not_imp.mp hn
    have hx : dget a.conns n = none := by simpa using hx
    have e := named_err a kind found n hn hx
    refine ⟨⟨fun _ => ⟨n, hn, (dget_none a.conns n).mp hx⟩, fun _ => ⟨.key, by rw [search, e]; rfl⟩⟩, ?_⟩
    intro l hl
    rw [search, e] at hl
    cases hl

/-- Each connection is given once if no two of the names found stand for the same connection of the kind. -/
theorem C83_once (a : Info) (kind : Nat → Bool) (found : List String) (dflt : Bool) (l : List Nat)
    (h : search a kind found dflt = .ok l)
    (hd : found.Pairwise (fun m n => ∀ x, kind x = true → dget a.conns m = some x → dget a.conns n ≠ some x)) : l.Nodup := by
  have hall : ∀ n ∈ found, (dget a.conns n).isSome := by
    intro n hn
    cases hx : dget a.conns n with
    | some x => rfl
    | none => rw [search, named_err a kind found n hn hx] at h; cases h
  rw [search, named_ok a kind found hall] at h
  have h' := Except.ok.inj h
  subst h'
  have h1 : ((found.filterMap (dget a.conns)).filter kind).Nodup := by
    clear hall h
    induction found with
    | nil => exact .nil
    | cons n ns ih =>
      rw [List.pairwise_cons] at hd
      rw [List.filterMap_cons]
      cases hx : dget a.conns n with
      | none => exact ih hd.2
      | some x =>
        dsimp only
        rw [List.filter_cons]
        split
        · rename_i hk
          rw [List.nodup_cons]
          refine ⟨?_, ih hd.2⟩
          intro hm
          obtain ⟨h1, -⟩ := List.mem_filter.mp hm
          obtain ⟨m, hm, he⟩ := List.mem_filterMap.mp h1
          exact hd.1 m hm x hk hx he
        · exact ih hd.2
  cases dflt with
  | false => exact h1
  | true =>
    simp only [if_true]
    rw [List.nodup_append]
    refine ⟨h1, others_nodup _ _ _, ?_⟩
    rintro x hx y hy rfl
    exact ((mem_others kind a.managed _ x).mp hy).2.2 hx

/-- A single connection: the only one a search gives. -/
theorem C83_single (a : Info) (kind : Nat → Bool) (found : List String) (dflt : Bool) (x : Nat) :
    single a kind found dflt = .ok x ↔ search a kind found dflt = .ok [x] := by
  unfold single
  cases search a kind found dflt with
  | error e => simp
  | ok l =>
    match l with
    | [] => simp
    | [y] => simp
    | _ :: _ :: _ => simp

/-- A connection that is registered under two names is found twice, and is no single connection although there is
no other. -/
theorem C83_twice_fails (a : Info) (kind : Nat → Bool) (m n : String) (x : Nat) (dflt : Bool) (hm : dget a.conns m = some x)
    (hn : dget a.conns n = some x) (hk : kind x = true) (ho : ∀ y ∈ a.managed, kind y = true → y = x) :
    search a kind [m, n] dflt = .ok [x, x] ∧ single a kind [m, n] dflt = .error .assertion := by
  have e : search a kind [m, n] dflt = .ok [x, x] := by
    have hno : others kind [x, x] a.managed = [] := by
      rw [List.eq_nil_iff_forall_not_mem]
      intro y hy
      obtain ⟨h1, h2, h3⟩ := (mem_others kind a.managed [x, x] y).mp hy
      exact h3 (by rw [ho y h1 h2]; exact List.mem_cons_self)
    cases dflt <;> simp [search, named, hm, hn, hk, Except.map, hno]
  exact ⟨e, by simp [single, e]⟩

/-- Names do not narrow a search with the default pattern: while all connections are managed, as they are once
the manager has taken them up, the same connections are found for any names. -/
theorem C83_names_fails (a : Info) (kind : Nat → Bool) (found found' : List String) (l l' : List Nat)
    (hman : ∀ p ∈ a.conns, p.2 ∈ a.managed) (h : search a kind found true = .ok l)
    (h' : search a kind found' true = .ok l') : ∀ x, x ∈ l ↔ x ∈ l' := by
  have key : ∀ (f : List String) (l : List Nat), search a kind f true = .ok l →
      ∀ x, x ∈ l ↔ kind x = true ∧ x ∈ a.managed := by
    intro f l hl x
    rw [(C83_found a kind f true).2 l hl x]
    constructor
    · rintro ⟨h1, ⟨n, -, h2⟩ | ⟨-, h2⟩⟩
      · exact ⟨h1, hman _ (dget_mem h2)⟩
      · exact ⟨h1, h2⟩
    · rintro ⟨h1, h2⟩
      exact ⟨h1, Or.inr ⟨rfl, h2⟩⟩
  intro x
  rw [key found l h, key found' l' h']

theorem search_one (a : Info) (kind : Nat → Bool) (n : String) (x : Nat) (hn : dget a.conns n = some x) :
    search a kind [n] true
      = .ok ((if kind x then [x] else []) ++ others kind (if kind x then [x] else []) a.managed) := by
  simp [search, named, hn, Except.map]

/-- So a connection can be had by its name only if no other of its kind is managed. -/
theorem C83_single_fails (a : Info) (kind : Nat → Bool) (n : String) (x y : Nat) (hn : dget a.conns n = some x)
    (hx : kind x = true) (hy : y ∈ a.managed) (hk : kind y = true) (hne : y ≠ x) :
    single a kind [n] true = .error .assertion := by
  have hm : y ∈ others kind [x] a.managed := (mem_others kind a.managed [x] y).mpr ⟨hy, hk, by simpa using hne⟩
  unfold single
  rw [search_one a kind n x hn]
  simp only [hx, if_true]
  match others kind [x] a.managed, hm with
  | z :: zs, _ => rfl

/-- And a name whose connection is of another kind gives the one managed connection of the kind asked for. -/
theorem C83_other_fails (a : Info) (kind : Nat → Bool) (n : String) (x y : Nat) (hn : dget a.conns n = some x)
    (hx : kind x = false) (hy : a.managed.filter kind = [y]) : single a kind [n] true = .ok y := by
  have key : ∀ (cs seen : List Nat), (∀ c ∈ cs, kind c = true → c ∉ seen) → (cs.filter kind).Nodup →
      others kind seen cs = cs.filter kind := by
    intro cs
    induction cs with
    | nil => intro _ _ _; rfl
    | cons c cs ih =>
      intro seen h hnd
      rw [others, List.filter_cons]
      by_cases hc : kind c = true
      · rw [if_pos ⟨hc, h c List.mem_cons_self hc⟩, if_pos hc]
        rw [List.filter_cons, if_pos hc, List.nodup_cons] at hnd
        rw [ih (c :: seen) (by
          intro d hd hk hm
          rcases List.mem_cons.mp hm with rfl | hm
          · exact hnd.1 (List.mem_filter.mpr ⟨hd, hk⟩)
          · exact h d (List.mem_cons_of_mem _ hd) hk hm) hnd.2]
      · rw [if_neg (fun h => hc h.1), if_neg hc]
        rw [List.filter_cons, if_neg hc] at hnd
        exact ih seen (fun d hd => h d (List.mem_cons_of_mem _ hd)) hnd
  unfold single
  rw [search_one a kind n x hn]
  simp only [hx, Bool.false_eq_true, if_false, List.nil_append]
  rw [key a.managed [] (by simp) (by rw [hy]; simp), hy]

/-- Tasks and structs are found exactly by name and kind. -/
theorem C83_named (items : List (String × Nat)) (kind : Nat → Bool) (hit : String → Bool) (x : Nat) :
    (x ∈ searchNamed items kind hit ↔ kind x = true ∧ ∃ n, (n, x) ∈ items ∧ hit n = true) ∧
    ((items.map (·.2)).Nodup → (searchNamed items kind hit).Nodup) := by
  constructor
  · simp only [searchNamed, List.mem_map, List.mem_filter, Bool.and_eq_true]
    constructor
    · rintro ⟨⟨n, y⟩, ⟨h1, h2, h3⟩, rfl⟩; exact ⟨h3, n, h1, h2⟩
    · rintro ⟨h3, n, h1, h2⟩; exact ⟨(n, x), ⟨h1, h2, h3⟩, rfl⟩
  · intro h
    exact h.sublist (List.Sublist.map _ List.filter_sublist)

/-- A client 0, a server's side of a connection 1 of the same kind, a connection 2 of another kind. -/
def ex : Info := ⟨[("client", 0), ("alias", 0), ("udp", 2)], [0, 1, 2]⟩

theorem C83_cases :
    (search ex (fun c => c < 2) ["client"] false).toOption = some [0] ∧
    (search ex (fun c => c < 2) ["client"] true).toOption = some [0, 1] ∧
    (search ex (fun c => c < 2) ["client", "alias", "udp"] true).toOption = some [0, 0, 1] ∧
    (single ex (fun c => c = 2) ["client"] true).toOption = some 2 ∧
    (search ex (fun _ => true) ["nobody"] false).toOption = none ∧
    searchNamed [("a1", 4), ("a2", 5), ("b", 6)] (fun x => x ≠ 5) (fun n => n.startsWith "a") = [4] := by
  refine ⟨?_, ?_, ?_, ?_, ?_, ?_⟩ <;> decide +kernel

end Verif.Arbiter.Search
