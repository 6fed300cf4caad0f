import Verif.Registry.Model
/-!
C67: arrays of channels and bit-fields (channel/environment/array.py).

The environment is seen through the look-ups the method makes. Primitives are identities; how arrays of them are
written is in `Serial`.
-/
namespace Verif.EnvArray

open Verif.Registry

/-- `channels.names.name` (registry), `get` (the channel's primitive, environment/base.py 233–244), `fields.get_fields`
(the index of the bit-fields, manager/base.py 179–188), `BitFields.names` and `BitFields.raw`. -/
structure View where
  name : Key Int → Option String
  chan : String → Option Nat
  group : String → Option Nat
  members : Nat → List String
  raw : Nat → Nat

/-- The local variables of `array`, array.py 52–58. `curr_fields` is left out: it is never anything but `None`. The
sets are lists. -/
structure St where
  names : List String
  slots : List Nat
  invalid : List String
  available : List String

/-- One key, array.py 63–105. -/
def View.step (V : View) (s : St) (key : Key Int) : Except PyErr St :=
  match V.name key with
  | none => .error .assertion
  | some n =>
    if n ∈ s.names then .error .assertion
    else
      match V.chan n with
      | some r => .ok ⟨s.names ++ [n], s.slots ++ [r], s.invalid ++ s.available, []⟩
      | none =>
        let (inv, avail) := if n ∈ s.available then (s.invalid, s.available) else (s.invalid ++ s.available, [])
        if n ∈ inv then .error .assertion
        else
          match V.group n with
          | none => .error .assertion
          | some g =>
            if n ∈ V.members g then .ok ⟨s.names ++ [n], s.slots ++ [V.raw g], inv, (V.members g).filter (· ≠ n)⟩
            else .error .key

/-- `array`, array.py 43–107, for given keys. -/
def View.from (V : View) (s : St) : List (Key Int) → Except PyErr St
  | [] => .ok s
  | k :: ks =>
    match V.step s k with
    | .error e => .error e
    | .ok s => View.from V s ks

def View.array (V : View) (keys : List (Key Int)) : Except PyErr (List String × List Nat) :=
  (V.from ⟨[], [], [], []⟩ keys).map (fun s => (s.names, s.slots))

/-! ### What the result should be -/

/-- The bit-fields a name belongs to, unless it is a channel. -/
def View.home (V : View) (n : String) : Option Nat := if (V.chan n).isSome then none else V.group n

/-- The primitive a name stands for. -/
def View.prim (V : View) (n : String) : Option Nat :=
  match V.chan n with
  | some r => some r
  | none => (V.group n).map V.raw

/-- The names of the same bit-fields stand next to each other. -/
def View.Together (V : View) (ns : List String) : Prop :=
  ∀ p q r x y g, ns = p ++ x :: q ++ y :: r → V.home x = some g → V.home y = some g → ∀ z ∈ q, V.home z = some g

/-- The look-ups agree: the manager finds for a name the bit-fields that have it. -/
def View.Ok (V : View) : Prop := ∀ n g, V.group n = some g ↔ n ∈ V.members g

/-- What is known while names are read: which names are refused from now on. -/
structure Inv (V : View) (s : St) : Prop where
  nodup : s.names.Nodup
  slots : s.slots.map some = s.names.map V.prim
  together : V.Together s.names
  available : ∀ z, z ∈ s.available ↔ ∃ l g, s.names.getLast? = some l ∧ V.home l = some g ∧ z ∈ V.members g ∧ z ≠ l
  invalid : ∀ z g, z ∉ s.names → V.home z = some g →
    (z ∈ s.invalid ↔ (∃ x ∈ s.names, V.home x = some g) ∧ ∀ l, s.names.getLast? = some l → V.home l ≠ some g)

theorem last_concat (p : List String) (x l : String) (q : List String) : (p ++ x :: q.concat l).getLast? = some l := by
  have : p ++ x :: q.concat l = (p ++ x :: q) ++ [l] := by simp
  rw [this, List.getLast?_concat]

theorem together_snoc (V : View) (ns : List String) (n : String) (h : V.Together ns) :
    V.Together (ns ++ [n]) ↔ ∀ g, V.home n = some g → (∃ x ∈ ns, V.home x = some g) →
      ∃ l, ns.getLast? = some l ∧ V.home l = some g := by
  constructor
  · intro ht g hg ⟨x, hx, hxg⟩
    obtain ⟨p, q, rfl⟩ := List.append_of_mem hx
    rcases List.eq_nil_or_concat q with rfl | ⟨q', l, rfl⟩
    · exact ⟨x, by simp, hxg⟩
    · refine ⟨l, by simpa using last_concat p x l q', ?_⟩
      exact ht p (q' ++ [l]) [] x n g (by simp) hxg hg l (by simp)
  · intro hn p q r x y g e hx hy z hz
    rcases List.eq_nil_or_concat r with rfl | ⟨r', m, rfl⟩
    · have e' : ns ++ [n] = (p ++ x :: q) ++ [y] := by simpa using e
      obtain ⟨rfl, hny⟩ := List.append_inj' e' rfl
      cases hny
      obtain ⟨l, hl, hlg⟩ := hn g hy ⟨x, by simp, hx⟩
      rcases List.eq_nil_or_concat q with rfl | ⟨q', m, rfl⟩
      · cases hz
      · have hml : m = l := by
          have := last_concat p x m q'
          simp only [List.concat_eq_append] at this hl
          rw [this] at hl
          exact Option.some.inj hl
        subst hml
        have hz' : z ∈ q' ∨ z = m := by simpa using hz
        rcases hz' with hz | rfl
        · exact h p q' [] x m g (by simp) hx hlg z hz
        · exact hlg
    · have e' : ns ++ [n] = (p ++ x :: q ++ y :: r') ++ [m] := by simpa using e
      obtain ⟨rfl, -⟩ := List.append_inj' e' rfl
      exact h p q r' x y g rfl hx hy z hz

theorem home_none_of_chan (V : View) (n : String) (r : Nat) (h : V.chan n = some r) : V.home n = none := by
  simp [View.home, h]

theorem home_of_field (V : View) (n : String) (h : V.chan n = none) : V.home n = V.group n := by
  simp [View.home, h]

/-- A key is taken on exactly these conditions. -/
def View.Takes (V : View) (ns : List String) (key : Key Int) (n : String) : Prop :=
  V.name key = some n ∧ n ∉ ns ∧ (V.prim n).isSome ∧ V.Together (ns ++ [n])

theorem step_ok (V : View) (ok : V.Ok) (s : St) (inv : Inv V s) (key : Key Int) (n : String) (h : V.Takes s.names key n) :
    ∃ s', V.step s key = .ok s' ∧ Inv V s' ∧ s'.names = s.names ++ [n] := by
  obtain ⟨h1, h2, h3, h4⟩ := h
  have hnd : (s.names ++ [n]).Nodup := by
    rw [List.nodup_append]
    exact ⟨inv.nodup, by simp, by rintro a ha b hb rfl; rw [List.mem_singleton.mp hb] at ha; exact h2 ha⟩
  cases hc : V.chan n with
  | some r =>
    refine ⟨⟨s.names ++ [n], s.slots ++ [r], s.invalid ++ s.available, []⟩, ?_, ⟨hnd, ?_, h4, ?_, ?_⟩, rfl⟩
    · simp only [View.step, h1, if_neg h2, hc]
    · simp [inv.slots, View.prim, hc]
    · intro z
      simp only [List.not_mem_nil, false_iff]
      rintro ⟨l, g, hl, hg, -⟩
      rw [List.getLast?_concat] at hl
      cases hl
      rw [home_none_of_chan V n r hc] at hg
      cases hg
    · intro z g hz hg
      have hz' : z ∉ s.names := fun h => hz (List.mem_append_left _ h)
      rw [List.mem_append, inv.invalid z g hz' hg, inv.available z]
      constructor
      · intro h
        refine ⟨?_, ?_⟩
        · rcases h with ⟨⟨x, hx, hxg⟩, -⟩ | ⟨l, g', hl, hg', hm, -⟩
          · exact ⟨x, List.mem_append_left _ hx, hxg⟩
          · refine ⟨l, List.mem_append_left _ (List.mem_of_getLast? hl), ?_⟩
            have := (ok z g').mpr hm
            have hgz : V.group z = some g := by
              unfold View.home at hg
              split at hg
              · cases hg
              · exact hg
            rw [hgz] at this
            cases this
            exact hg'
        · intro l hl
          rw [List.getLast?_concat] at hl
          cases hl
          rw [home_none_of_chan V n r hc]
          simp
      · rintro ⟨⟨x, hx, hxg⟩, -⟩
        rcases List.mem_append.mp hx with hx | hx
        · by_cases hl : ∀ l, s.names.getLast? = some l → V.home l ≠ some g
          · exact .inl ⟨⟨x, hx, hxg⟩, hl⟩
          · simp only [Classical.not_forall] at hl
            obtain ⟨l, hl, hlg⟩ := hl
            have hlg : V.home l = some g := Classical.not_not.mp hlg
            have hgz : V.group z = some g := by
              unfold View.home at hg
              split at hg
              · cases hg
              · exact hg
            refine .inr ⟨l, g, hl, hlg, (ok z g).mp hgz, ?_⟩
            rintro rfl
            exact hz' (List.mem_of_getLast? hl)
        · rw [List.mem_singleton.mp hx, home_none_of_chan V n r hc] at hxg
          cases hxg
  | none =>
    have hh := home_of_field V n hc
    cases hgr : V.group n with
    | none => simp [View.prim, hc, hgr] at h3
    | some g =>
      rw [hgr] at hh
      have hm := (ok n g).mp hgr
      have hkey := (together_snoc V s.names n inv.together).mp h4 g hh
      by_cases hav : n ∈ s.available
      · have hninv : n ∉ s.invalid := by
          rw [inv.invalid n g h2 hh]
          rintro ⟨hx, hl⟩
          obtain ⟨l, hl1, hl2⟩ := hkey hx
          exact hl l hl1 hl2
        obtain ⟨l, g', hl, hlg, hmem, hne⟩ := (inv.available n).mp hav
        have : g' = g := by
          have := (ok n g').mpr hmem
          rw [hgr] at this
          exact (Option.some.inj this).symm
        subst this
        refine ⟨⟨s.names ++ [n], s.slots ++ [V.raw g'], s.invalid, (V.members g').filter (· ≠ n)⟩, ?_, ⟨hnd, ?_, h4, ?_, ?_⟩, rfl⟩
        · simp only [View.step, h1, if_neg h2, hc, if_pos hav, if_neg hninv, hgr, if_pos hm]
        · simp [inv.slots, View.prim, hc, hgr]
        · intro z
          simp only [List.getLast?_concat, Option.some.injEq, List.mem_filter, decide_eq_true_eq]
          constructor
          · rintro ⟨a, b⟩; exact ⟨n, g', rfl, hh, a, by simpa using b⟩
          · rintro ⟨l, g'', rfl, h5, a, b⟩
            rw [hh] at h5
            cases h5
            exact ⟨a, by simpa using b⟩
        · intro z k hz hk
          have hz' : z ∉ s.names := fun h => hz (List.mem_append_left _ h)
          rw [inv.invalid z k hz' hk]
          simp only [List.getLast?_concat, Option.some.injEq, forall_eq']
          rw [hl]
          simp only [Option.some.injEq, forall_eq', hlg, hh]
          refine and_congr ⟨fun ⟨x, hx, hxk⟩ => ⟨x, List.mem_append_left _ hx, hxk⟩, fun ⟨x, hx, hxk⟩ => ?_⟩ Iff.rfl
          rcases List.mem_append.mp hx with hx | hx
          · exact ⟨x, hx, hxk⟩
          · rw [List.mem_singleton.mp hx, hh] at hxk
            cases hxk
            exact ⟨l, List.mem_of_getLast? hl, hlg⟩
      · have hnl : ∀ l, s.names.getLast? = some l → V.home l ≠ some g := by
          intro l hl hlg
          exact hav ((inv.available n).mpr ⟨l, g, hl, hlg, hm, fun e => h2 (e ▸ List.mem_of_getLast? hl)⟩)
        have hnv : ¬ ∃ x ∈ s.names, V.home x = some g := by
          intro hx
          obtain ⟨l, hl, hlg⟩ := hkey hx
          exact hnl l hl hlg
        have hninv : n ∉ s.invalid ++ s.available := by
          rw [List.mem_append, not_or]
          exact ⟨by rw [inv.invalid n g h2 hh]; rintro ⟨hx, -⟩; exact hnv hx, hav⟩
        refine ⟨⟨s.names ++ [n], s.slots ++ [V.raw g], s.invalid ++ s.available, (V.members g).filter (· ≠ n)⟩, ?_,
          ⟨hnd, ?_, h4, ?_, ?_⟩, rfl⟩
        · simp only [View.step, h1, if_neg h2, hc, if_neg hav, if_neg hninv, hgr, if_pos hm]
        · simp [inv.slots, View.prim, hc, hgr]
        · intro z
          simp only [List.getLast?_concat, Option.some.injEq, List.mem_filter, decide_eq_true_eq]
          constructor
          · rintro ⟨a, b⟩; exact ⟨n, g, rfl, hh, a, by simpa using b⟩
          · rintro ⟨l, g'', rfl, h5, a, b⟩
            rw [hh] at h5
            cases h5
            exact ⟨a, by simpa using b⟩
        · intro z k hz hk
          have hz' : z ∉ s.names := fun h => hz (List.mem_append_left _ h)
          have hgz : V.group z = some k := by
            unfold View.home at hk
            split at hk
            · cases hk
            · exact hk
          rw [List.mem_append, inv.invalid z k hz' hk, inv.available z]
          simp only [List.getLast?_concat, Option.some.injEq, forall_eq']
          constructor
          · intro h
            have hv : ∃ x ∈ s.names, V.home x = some k := by
              rcases h with ⟨hx, -⟩ | ⟨l, g', hl, hlg, hmz, -⟩
              · exact hx
              · refine ⟨l, List.mem_of_getLast? hl, ?_⟩
                have := (ok z g').mpr hmz
                rw [hgz] at this
                cases this
                exact hlg
            refine ⟨?_, ?_⟩
            · obtain ⟨x, hx, hxk⟩ := hv
              exact ⟨x, List.mem_append_left _ hx, hxk⟩
            · rw [hh]
              rintro e
              cases e
              exact hnv hv
          · rintro ⟨⟨x, hx, hxk⟩, hne⟩
            rcases List.mem_append.mp hx with hx | hx
            · by_cases hl : ∀ l, s.names.getLast? = some l → V.home l ≠ some k
              · exact .inl ⟨⟨x, hx, hxk⟩, hl⟩
              · simp only [Classical.not_forall] at hl
                obtain ⟨l, hl, hlg⟩ := hl
                refine .inr ⟨l, k, hl, Classical.not_not.mp hlg, (ok z k).mp hgz, ?_⟩
                rintro rfl
                exact hz' (List.mem_of_getLast? hl)
            · rw [List.mem_singleton.mp hx] at hxk
              exact absurd hxk hne

theorem step_err (V : View) (ok : V.Ok) (s : St) (inv : Inv V s) (key : Key Int) (h : ∀ n, ¬ V.Takes s.names key n) :
    V.step s key = .error .assertion := by
  unfold View.step
  cases h1 : V.name key with
  | none => rfl
  | some n =>
    by_cases h2 : n ∈ s.names
    · simp only [if_pos h2]
    · simp only [if_neg h2]
      cases hc : V.chan n with
      | some r =>
        refine absurd ⟨h1, h2, by simp [View.prim, hc], ?_⟩ (h n)
        rw [together_snoc V _ _ inv.together]
        intro g hg
        rw [home_none_of_chan V n r hc] at hg
        cases hg
      | none =>
        have hh := home_of_field V n hc
        cases hgr : V.group n with
        | none =>
          dsimp only
          split <;> simp
        | some g =>
          rw [hgr] at hh
          have hnt : ¬ V.Together (s.names ++ [n]) := fun ht => h n ⟨h1, h2, by simp [View.prim, hc, hgr], ht⟩
          rw [together_snoc V _ _ inv.together] at hnt
          simp only [Classical.not_forall] at hnt
          obtain ⟨g', hg', hx, hnl⟩ := hnt
          rw [hh] at hg'
          cases hg'
          have hl : ∀ l, s.names.getLast? = some l → V.home l ≠ some g := fun l hl hlg => hnl ⟨l, hl, hlg⟩
          have hin : n ∈ s.invalid := (inv.invalid n g h2 hh).mpr ⟨hx, hl⟩
          by_cases hav : n ∈ s.available
          · simp only [if_pos hav, if_pos hin]
          · simp only [if_neg hav, if_pos (List.mem_append_left s.available hin)]

theorem inv_new (V : View) : Inv V ⟨[], [], [], []⟩ :=
  ⟨List.nodup_nil, rfl, fun p q r x y g h => by simp at h, fun z => by simp, fun z g _ _ => by simp⟩

theorem together_prefix (V : View) (a b : List String) (h : V.Together (a ++ b)) : V.Together a := by
  intro p q r x y g e
  exact h p q (r ++ b) x y g (by simp [e])

theorem from_ok (V : View) (ok : V.Ok) (ks : List (Key Int)) (s s' : St) (inv : Inv V s) (h : V.from s ks = .ok s') :
    Inv V s' ∧ ∃ ms, s'.names = s.names ++ ms ∧ ks.map V.name = ms.map some := by
  induction ks generalizing s with
  | nil => cases h; exact ⟨inv, [], by simp, rfl⟩
  | cons k ks ih =>
    by_cases ht : ∃ n, V.Takes s.names k n
    · obtain ⟨n, hn⟩ := ht
      obtain ⟨s1, e1, inv1, n1⟩ := step_ok V ok s inv k n hn
      rw [View.from, e1] at h
      obtain ⟨i, ms, a, b⟩ := ih s1 inv1 h
      exact ⟨i, n :: ms, by simp [a, n1], by simp [b, hn.1]⟩
    · rw [View.from, step_err V ok s inv k (fun n hn => ht ⟨n, hn⟩)] at h
      cases h

theorem from_takes (V : View) (ok : V.Ok) (ks : List (Key Int)) (s : St) (inv : Inv V s) (ms : List String)
    (h1 : ks.map V.name = ms.map some) (h2 : (s.names ++ ms).Nodup) (h3 : ∀ n ∈ ms, (V.prim n).isSome)
    (h4 : V.Together (s.names ++ ms)) : ∃ s', V.from s ks = .ok s' ∧ Inv V s' ∧ s'.names = s.names ++ ms := by
  induction ks generalizing s ms with
  | nil =>
    cases ms with
    | nil => exact ⟨s, rfl, inv, by simp⟩
    | cons _ _ => cases h1
  | cons k ks ih =>
    cases ms with
    | nil => cases h1
    | cons n ms =>
      simp only [List.map_cons, List.cons.injEq] at h1
      have hn : n ∉ s.names := fun h => (List.nodup_append.mp h2).2.2 n h n (by simp) rfl
      obtain ⟨s1, e1, inv1, n1⟩ := step_ok V ok s inv k n
        ⟨h1.1, hn, h3 n (by simp), together_prefix V _ ms (by simpa using h4)⟩
      obtain ⟨s', a, b, c⟩ := ih s1 inv1 ms h1.2 (by simpa [n1] using h2) (fun m hm => h3 m (by simp [hm]))
        (by simpa [n1] using h4)
      exact ⟨s', by rw [View.from, e1]; exact a, b, by simp [c, n1]⟩

theorem from_err (V : View) (ok : V.Ok) (ks : List (Key Int)) (s : St) (inv : Inv V s) (e : PyErr)
    (h : V.from s ks = .error e) : e = .assertion := by
  induction ks generalizing s with
  | nil => cases h
  | cons k ks ih =>
    by_cases ht : ∃ n, V.Takes s.names k n
    · obtain ⟨n, hn⟩ := ht
      obtain ⟨s1, e1, inv1, n1⟩ := step_ok V ok s inv k n hn
      rw [View.from, e1] at h
      exact ih s1 inv1 h
    · rw [View.from, step_err V ok s inv k (fun n hn => ht ⟨n, hn⟩)] at h
      cases h
      rfl

theorem map_some_isSome {α β : Type} (f : α → Option β) (l : List α) (s : List β) (h : s.map some = l.map f) :
    ∀ n ∈ l, (f n).isSome := by
  intro n hn
  have : f n ∈ s.map some := by rw [h]; exact List.mem_map_of_mem hn
  obtain ⟨b, -, hb⟩ := List.mem_map.mp this
  rw [← hb]; rfl

theorem map_some_inj {β : Type} (a b : List β) (h : a.map some = b.map some) : a = b :=
  (List.map_inj_right (fun _ _ h => Option.some.inj h)).mp h

/-- C67. A list of keys is accepted exactly when the keys stand for distinct names, each a channel or a field, and
the names of any one bit-fields primitive stand next to each other; then the names come out in the order of the keys,
and the array has, name by name, the primitive the name stands for. -/
theorem C67_when (V : View) (ok : V.Ok) (keys : List (Key Int)) (ns : List String) (slots : List Nat) :
    V.array keys = .ok (ns, slots) ↔
      keys.map V.name = ns.map some ∧ ns.Nodup ∧ V.Together ns ∧ slots.map some = ns.map V.prim := by
  constructor
  · intro h
    unfold View.array at h
    cases hf : V.from ⟨[], [], [], []⟩ keys with
    | error e => rw [hf] at h; cases h
    | ok s' =>
      rw [hf] at h
      cases h
      obtain ⟨i, ms, a, b⟩ := from_ok V ok keys _ s' (inv_new V) hf
      have : s'.names = ms := by simpa using a
      exact ⟨by rw [b, this], i.nodup, i.together, i.slots⟩
  · rintro ⟨h1, h2, h3, h4⟩
    obtain ⟨s', a, b, c⟩ := from_takes V ok keys _ (inv_new V) ns h1 (by simpa using h2)
      (map_some_isSome _ _ _ h4) (by simpa using h3)
    have hn : s'.names = ns := by simpa using c
    have hs : s'.slots = slots := map_some_inj _ _ (by rw [b.slots, hn, h4])
    unfold View.array
    rw [a, ← hn, ← hs]
    rfl

/-- C67. Everything else is refused with an assertion (never a `KeyError` out of a set). -/
theorem C67_refused (V : View) (ok : V.Ok) (keys : List (Key Int)) (e : PyErr) (h : V.array keys = .error e) :
    e = .assertion := by
  unfold View.array at h
  cases hf : V.from ⟨[], [], [], []⟩ keys with
  | error e' => rw [hf] at h; cases h; exact from_err V ok keys _ (inv_new V) _ hf
  | ok s' => rw [hf] at h; cases h

/-- C67 fails: a bit-fields primitive is in the array once for every one of its fields among the keys, not once. The
"current" bit-fields are never remembered (array.py 52, 97–101). -/
theorem C67_repeated_fails (V : View) (ok : V.Ok) (keys : List (Key Int)) (ns : List String) (slots : List Nat)
    (h : V.array keys = .ok (ns, slots)) (g : Nat) (hall : ∀ n ∈ ns, V.home n = some g) :
    slots = List.replicate keys.length (V.raw g) := by
  obtain ⟨h1, -, -, h4⟩ := (C67_when V ok keys ns slots).mp h
  have hp : ns.map V.prim = List.replicate ns.length (some (V.raw g)) := by
    rw [List.eq_replicate_iff]
    refine ⟨by simp, ?_⟩
    intro b hb
    obtain ⟨n, hn, rfl⟩ := List.mem_map.mp hb
    have := hall n hn
    unfold View.home at this
    unfold View.prim
    cases hc : V.chan n with
    | some r => rw [hc] at this; cases this
    | none => rw [hc] at this; simp only [Option.isSome_none] at this; simp at this; simp [this]
  have hl : keys.length = ns.length := by simpa using congrArg List.length h1
  apply map_some_inj
  rw [h4, hp, hl]
  simp

/-- C67, partial. With no two fields of the same bit-fields among the keys, and no two channels or bit-fields on the
same primitive, every primitive is in the array once. -/
theorem C67_once_partial (V : View) (ok : V.Ok) (keys : List (Key Int)) (ns : List String) (slots : List Nat)
    (h : V.array keys = .ok (ns, slots))
    (hinj : ∀ a ∈ ns, ∀ b ∈ ns, V.prim a = V.prim b → a = b) : slots.Nodup := by
  obtain ⟨-, h2, -, h4⟩ := (C67_when V ok keys ns slots).mp h
  have : (slots.map some).Nodup := by
    rw [h4]
    clear h4 h ok
    induction ns with
    | nil => simp
    | cons n ns ih =>
      rw [List.map_cons, List.nodup_cons]
      rw [List.nodup_cons] at h2
      refine ⟨?_, ih (fun a ha b hb => hinj a (by simp [ha]) b (by simp [hb])) h2.2⟩
      intro hm
      obtain ⟨m, hm, e⟩ := List.mem_map.mp hm
      exact h2.1 (hinj m (by simp [hm]) n (by simp) e ▸ hm)
  exact (List.pairwise_map.mp this).imp (fun h e => h (congrArg some e))

/-! ### A case: two channels, and bit-fields with two fields -/

def sample : View :=
  { name := fun k =>
      match k with
      | .name s => if s ∈ ["a", "b", "f", "g"] then some s else none
      | .id 1 => some "a" | .id 2 => some "b" | .id 3 => some "f" | .id 4 => some "g" | .id _ => none
    chan := fun n => if n = "a" then some 10 else if n = "b" then some 11 else none
    group := fun n => if n = "f" ∨ n = "g" then some 0 else none
    members := fun i => if i = 0 then ["f", "g"] else []
    raw := fun _ => 20 }

theorem sample_ok : sample.Ok := by
  intro n g
  by_cases h0 : g = 0
  · subst h0; simp only [sample, if_true, List.mem_cons, List.not_mem_nil, or_false]; split <;> simp_all
  · simp [sample, h0]
    intro _ h; exact absurd h.symm h0

example : sample.array [.id 1, .name "g", .id 3, .name "b"] = .ok (["a", "g", "f", "b"], [10, 20, 20, 11]) := by rfl
example : sample.array [.name "g", .id 3] = .ok (["g", "f"], [20, 20]) := by rfl
example : sample.array [.name "g", .id 1, .id 3] = .error .assertion := by rfl
example : sample.array [.id 1, .name "g", .id 2] = .ok (["a", "g", "b"], [10, 20, 11]) := by rfl
example : sample.array [.id 1, .name "z"] = .error .assertion := by rfl

end Verif.EnvArray
