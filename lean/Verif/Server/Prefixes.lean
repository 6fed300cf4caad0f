import Verif.Server.FilesClaims
/-!
C117: the paths under which the web application is served: `net/html/arbiter.py` (`web_app_paths`),
`net/server/app/__init__.py` (`launch_browser`, and of `setup` the registration of paths and
redirects), on top of the server's answers (C70).
-/
namespace Verif.Server.Prefixes
open Verif Verif.Tftp Verif.Http Verif.Server.Files

abbrev Str := List Char

/-! ### `web_app_paths` -/

/-- `http_redirects` and `http_app_paths` of the configuration; missing ones are empty
(html/arbiter.py 14–16). -/
structure Conf where
  redirects : List (Str × Str)
  paths : List Str
  deriving DecidableEq

def sIndex : Str := ['/', 'i', 'n', 'd', 'e', 'x', '.', 'h', 't', 'm', 'l']
def sApp : Str := ['/', 'a', 'p', 'p', '.', 'h', 't', 'm', 'l']

/-- html/arbiter.py 19–20. -/
def rooted (p : Str) : Str := if p.head? = some '/' then p else '/' :: p

/-- html/arbiter.py 25–26. -/
def indexOf (p : Str) : Str := p ++ sIndex
def appOf (p : Str) : Str := p ++ sApp

/-- `dict.setdefault`. -/
def setDefault (d : List (Str × Str)) (k v : Str) : List (Str × Str) :=
  match dget d k with
  | some _ => d
  | none => d ++ [(k, v)]

/-- One prefix, html/arbiter.py 18–32. -/
def addPrefix (c : Conf) (p : Str) : Conf × Option PyErr :=
  let p := rooted p
  if p.getLast? = some '/' then (c, some .assertion)
  else
    ({ redirects := setDefault (setDefault c.redirects p (indexOf p)) (indexOf p) (appOf p)
       paths := if appOf p ∈ c.paths then c.paths else c.paths ++ [appOf p] }, none)

/-- `web_app_paths` over `http_app_prefixes`; a failed assertion ends it. -/
def build (c : Conf) : List Str → Conf × Option PyErr
  | [] => (c, none)
  | p :: ps =>
    match addPrefix c p with
    | (c, none) => build c ps
    | (c, some e) => (c, some e)

/-! ### `setup` -/

/-- app/__init__.py 78–81. -/
def register (S : Site) : List (Str × Str) → Site × Option PyErr
  | [] => (S, none)
  | (k, v) :: r =>
    match addRedirect S k v with
    | .ok S => register S r
    | .error e => (S, some e)

/-- app/__init__.py 73–81; `page` is what the application writes. The dictionaries belong to the
class of connections, so they outlive an application. -/
def setup (page : Str) (c : Conf) (S : Site) : Site × Option PyErr :=
  register { S with apps := fun p => if p ∈ c.paths then some page else S.apps p } c.redirects

/-- The key under which a redirect is kept, server/__init__.py 74. -/
def srcKey (src : Str) : Bool × PPath :=
  if (PPath.parse src).abs then keyOf src else (false, ⟨true, (PPath.parse src).parts⟩)

/-- A browser: asks for a path and follows up to `n` redirects. (A location that starts with one
slash and has no dot segments is asked for as it is.) -/
def follow (S : Site) (fs : Fs) : Nat → Str → Option Answer
  | n, path =>
    match (Target.make .get path).bind (get S fs) with
    | .error _ => none
    | .ok (.data c m) => some (.data c m)
    | .ok (.redirect q) =>
      match n with
      | 0 => none
      | n + 1 => follow S fs n q

/-! ### `launch_browser` -/

def contains (sub : Str) : Str → Bool
  | [] => sub.isPrefixOf []
  | c :: s => sub.isPrefixOf (c :: s) || contains sub s

/-- "http" and "https", app/__init__.py 33. -/
def scheme (tls : Bool) : Str := if tls then ['h', 't', 't', 'p', 's'] else ['h', 't', 't', 'p']

def sServer : Str := ['_', 's', 'e', 'r', 'v', 'e', 'r']

/-- app/__init__.py 39–48. -/
def uri (tls : Bool) (host : Str) (port : Nat) (fragment : Str) : Str :=
  scheme tls ++ [':', '/', '/'] ++ host ++ [':'] ++ (toString port).toList ++ ['/'] ++
    (if fragment = [] then [] else '#' :: fragment)

/-- What is opened for one scheme, app/__init__.py 34–53; `ports` is the configuration's list, if it
has one. -/
def open1 (on : Bool) (tls : Bool) (host fragment : Str) (ports : Option (List (Str × Nat))) : Except PyErr (List Str) :=
  if on then
    match ports with
    | none => .error .key
    | some l => .ok ((l.filter fun p => contains (scheme tls ++ sServer) p.1).map fun p => uri tls host p.2 fragment)
  else .ok []

/-- `launch_browser`, app/__init__.py 26–53: what is opened and whether it raised. -/
def launch (on : Bool → Bool) (host fragment : Str) (ports : Option (List (Str × Nat))) : List Str × Option PyErr :=
  match open1 (on false) false host fragment ports with
  | .error e => ([], some e)
  | .ok a =>
    match open1 (on true) true host fragment ports with
    | .error e => (a, some e)
    | .ok b => (a ++ b, none)

/-! ### The configuration after `web_app_paths` -/

theorem setDefault_get (d : List (Str × Str)) (k v x : Str) :
    dget (setDefault d k v) x = (dget d x).or (if k = x then some v else none) := by
  unfold setDefault
  cases h : dget d k with
  | some w =>
    dsimp only
    by_cases e : k = x
    · subst e; rw [h]; rfl
    · rw [if_neg e, Option.or_none]
  | none =>
    dsimp only
    rw [dget_append, dget_cons, dget_nil]

theorem setDefault_prefix (d : List (Str × Str)) (k v : Str) : d <+: setDefault d k v := by
  unfold setDefault
  split
  · exact List.prefix_rfl
  · exact List.prefix_append _ _

theorem setDefault_self (d : List (Str × Str)) (k v : Str) (h : (dget d k).isSome) : setDefault d k v = d := by
  unfold setDefault
  cases hd : dget d k with
  | some w => rfl
  | none => rw [hd] at h; cases h

theorem rooted_last (p : Str) : (rooted p).getLast? = some '/' ↔ p = [] ∨ p.getLast? = some '/' := by
  unfold rooted
  split
  · rename_i h
    cases p with
    | nil => cases h
    | cons c s => simp
  · cases p with
    | nil => simp
    | cons c s => rw [List.getLast?_cons_cons]; simp

theorem build_cons (c : Conf) (p : Str) (ps : List Str) (h : (rooted p).getLast? ≠ some '/') :
    build c (p :: ps) = build (addPrefix c p).1 ps := by
  rw [build]
  unfold addPrefix
  dsimp only
  rw [if_neg h]

theorem build_stop (c : Conf) (p : Str) (ps : List Str) (h : (rooted p).getLast? = some '/') :
    build c (p :: ps) = (c, some .assertion) := by
  rw [build]
  unfold addPrefix
  dsimp only
  rw [if_pos h]

theorem addPrefix_ok (c : Conf) (p : Str) (h : (rooted p).getLast? ≠ some '/') : (addPrefix c p).1 =
    { redirects := setDefault (setDefault c.redirects (rooted p) (indexOf (rooted p))) (indexOf (rooted p)) (appOf (rooted p))
      paths := if appOf (rooted p) ∈ c.paths then c.paths else c.paths ++ [appOf (rooted p)] } := by
  unfold addPrefix
  dsimp only
  rw [if_neg h]

/-- C117: the configuration is accepted exactly if no prefix is empty or ends with a slash; the only failure is the
assertion. -/
theorem C117_refused (c : Conf) (ps : List Str) :
    ((build c ps).2 = none ↔ ∀ p ∈ ps, p ≠ [] ∧ p.getLast? ≠ some '/') ∧
      ((build c ps).2 ≠ none → (build c ps).2 = some .assertion) := by
  induction ps generalizing c with
  | nil => exact ⟨⟨fun _ p hp => (by cases hp), fun _ => rfl⟩, fun h => absurd rfl h⟩
  | cons p ps ih =>
    by_cases h : (rooted p).getLast? = some '/'
    · rw [build_stop c p ps h]
      refine ⟨⟨fun e => (by cases e), fun hh => ?_⟩, fun _ => rfl⟩
      have := hh p List.mem_cons_self
      rcases (rooted_last p).mp h with e | e
      · exact absurd e this.1
      · exact absurd e this.2
    · rw [build_cons c p ps h]
      refine ⟨?_, (ih _).2⟩
      rw [(ih _).1]
      have hp : p ≠ [] ∧ p.getLast? ≠ some '/' :=
        ⟨fun e => h ((rooted_last p).mpr (.inl e)), fun e => h ((rooted_last p).mpr (.inr e))⟩
      simp only [List.mem_cons, forall_eq_or_imp]
      exact ⟨fun hh => ⟨hp, hh⟩, fun hh => hh.2⟩

/-- C117: whatever the configuration itself says stays, and stays first, even when a prefix is refused. -/
theorem C117_kept (c : Conf) (ps : List Str) :
    c.redirects <+: (build c ps).1.redirects ∧ c.paths <+: (build c ps).1.paths := by
  induction ps generalizing c with
  | nil => exact ⟨List.prefix_rfl, List.prefix_rfl⟩
  | cons p ps ih =>
    by_cases h : (rooted p).getLast? = some '/'
    · rw [build_stop c p ps h]; exact ⟨List.prefix_rfl, List.prefix_rfl⟩
    · rw [build_cons c p ps h]
      obtain ⟨h1, h2⟩ := ih (addPrefix c p).1
      rw [addPrefix_ok c p h] at h1 h2 ⊢
      refine ⟨((setDefault_prefix _ _ _).trans (setDefault_prefix _ _ _)).trans h1, List.IsPrefix.trans ?_ h2⟩
      dsimp only
      split
      · exact List.prefix_rfl
      · exact List.prefix_append _ _

/-- Where the first of the prefixes that says anything about a path sends it: a prefix to its index, its index to its
application. -/
def sends (k : Str) : List Str → Option Str
  | [] => none
  | p :: ps =>
    let q := if p.head? = some '/' then p else '/' :: p
    if k = q then some (q ++ ['/', 'i', 'n', 'd', 'e', 'x', '.', 'h', 't', 'm', 'l'])
    else if k = q ++ ['/', 'i', 'n', 'd', 'e', 'x', '.', 'h', 't', 'm', 'l'] then
      some (q ++ ['/', 'a', 'p', 'p', '.', 'h', 't', 'm', 'l'])
    else sends k ps

/-- C117: the redirects are the configuration's, then the first prefix's that has one; the paths of the application
are the configuration's and one for every prefix, none of them twice if none was. -/
theorem C117_exact (c : Conf) (ps : List Str) (h : (build c ps).2 = none) :
    (∀ k, dget (build c ps).1.redirects k = (dget c.redirects k).or (sends k ps)) ∧
      (∀ x, x ∈ (build c ps).1.paths ↔ x ∈ c.paths ∨ ∃ p ∈ ps, x = rooted p ++ ['/', 'a', 'p', 'p', '.', 'h', 't', 'm', 'l']) ∧
      (c.paths.Nodup → (build c ps).1.paths.Nodup) := by
  induction ps generalizing c with
  | nil =>
    refine ⟨fun k => ?_, fun x => ?_, fun hn => hn⟩
    · rw [sends, Option.or_none]; rfl
    · simp [build]
  | cons p ps ih =>
    by_cases hl : (rooted p).getLast? = some '/'
    · rw [build_stop c p ps hl] at h; cases h
    · rw [build_cons c p ps hl] at h ⊢
      obtain ⟨h1, h2, h3⟩ := ih _ h
      refine ⟨fun k => ?_, fun x => ?_, fun hn => ?_⟩
      · rw [h1, addPrefix_ok c p hl, sends]
        dsimp only
        rw [setDefault_get, setDefault_get]
        show _ = (dget c.redirects k).or (if k = rooted p then some (indexOf (rooted p)) else
          if k = indexOf (rooted p) then some (appOf (rooted p)) else sends k ps)
        cases dget c.redirects k with
        | some v => rfl
        | none =>
          simp only [Option.none_or]
          by_cases e1 : k = rooted p
          · subst e1; simp
          · rw [if_neg e1, if_neg (fun e => e1 e.symm)]
            by_cases e2 : k = indexOf (rooted p)
            · subst e2; simp
            · rw [if_neg e2, if_neg (fun e => e2 e.symm)]; simp
      · rw [h2, addPrefix_ok c p hl]
        dsimp only
        have : x ∈ (if appOf (rooted p) ∈ c.paths then c.paths else c.paths ++ [appOf (rooted p)]) ↔
            x ∈ c.paths ∨ x = appOf (rooted p) := by
          split
          · rename_i hm
            exact ⟨.inl, fun e => e.elim id (fun e => e ▸ hm)⟩
          · simp
        rw [this, or_assoc]
        simp only [List.mem_cons, exists_eq_or_imp]
        rfl
      · apply h3
        rw [addPrefix_ok c p hl]
        dsimp only
        split
        · exact hn
        · rename_i hm
          rw [List.nodup_append]
          exact ⟨hn, by simp, fun a ha b hb e => hm (by rw [List.mem_singleton] at hb; rw [← hb, ← e]; exact ha)⟩

theorem build_same (c : Conf) (ps : List Str) (h0 : ∀ p ∈ ps, (rooted p).getLast? ≠ some '/')
    (h1 : ∀ p ∈ ps, (dget c.redirects (rooted p)).isSome ∧ (dget c.redirects (indexOf (rooted p))).isSome)
    (h2 : ∀ p ∈ ps, appOf (rooted p) ∈ c.paths) : build c ps = (c, none) := by
  induction ps with
  | nil => rfl
  | cons p ps ih =>
    have hp := h0 p List.mem_cons_self
    have e : (addPrefix c p).1 = c := by
      rw [addPrefix_ok c p hp, if_pos (h2 p List.mem_cons_self), setDefault_self _ _ _ (h1 p List.mem_cons_self).1,
        setDefault_self _ _ _ (h1 p List.mem_cons_self).2]
    rw [build_cons c p ps hp, e]
    exact ih (fun q hq => h0 q (List.mem_cons_of_mem _ hq)) (fun q hq => h1 q (List.mem_cons_of_mem _ hq))
      (fun q hq => h2 q (List.mem_cons_of_mem _ hq))

theorem sends_cons (k p : Str) (ps : List Str) : sends k (p :: ps) =
    if k = rooted p then some (indexOf (rooted p)) else if k = indexOf (rooted p) then some (appOf (rooted p)) else sends k ps := rfl

theorem sends_prefix (p : Str) (ps : List Str) (h : p ∈ ps) :
    (sends (rooted p) ps).isSome ∧ (sends (indexOf (rooted p)) ps).isSome := by
  induction ps with
  | nil => cases h
  | cons q ps ih =>
    rw [sends_cons, sends_cons]
    rcases List.mem_cons.mp h with e | hm
    · subst e
      refine ⟨by rw [if_pos rfl]; rfl, ?_⟩
      split
      · rfl
      · rw [if_pos rfl]; rfl
    · constructor
      · split
        · rfl
        · split
          · rfl
          · exact (ih hm).1
      · split
        · rfl
        · split
          · rfl
          · exact (ih hm).2

theorem build_ends (c : Conf) (ps : List Str) (h : (build c ps).2 = none) : ∀ p ∈ ps, (rooted p).getLast? ≠ some '/' := by
  intro p hp hl
  have := (C117_refused c ps).1.mp h p hp
  rcases (rooted_last p).mp hl with e | e
  · exact this.1 e
  · exact this.2 e

/-- C117: a configuration that was built is not changed by building it again. -/
theorem C117_again (c : Conf) (ps : List Str) (h : (build c ps).2 = none) :
    build (build c ps).1 ps = ((build c ps).1, none) := by
  obtain ⟨h1, h2, -⟩ := C117_exact c ps h
  refine build_same _ ps (build_ends c ps h) (fun p hp => ⟨?_, ?_⟩) (fun p hp => (h2 _).mpr (.inr ⟨p, hp, rfl⟩))
  · rw [h1]
    have := (sends_prefix p ps hp).1
    cases dget c.redirects (rooted p) with
    | some v => rfl
    | none => exact this
  · rw [h1]
    have := (sends_prefix p ps hp).2
    cases dget c.redirects (indexOf (rooted p)) with
    | some v => rfl
    | none => exact this

/-! ### Registration -/

theorem addRedirect_eq (S : Site) (src dst : Str) : addRedirect S src dst =
    if (dget S.redirects (srcKey src)).isSome then .error .assertion
    else .ok { S with redirects := dset S.redirects (srcKey src) dst } := rfl

/-- What a successful registration leaves. -/
theorem register_spec (l : List (Str × Str)) : ∀ (S : Site),
    ((register S l).2 = none ↔ (l.map fun e => srcKey e.1).Nodup ∧ ∀ e ∈ l, dget S.redirects (srcKey e.1) = none) ∧
      ((register S l).2 ≠ none → (register S l).2 = some .assertion) ∧
      (∃ r, (register S l).1 = { S with redirects := r } ∧ ((register S l).2 = none →
        (∀ e ∈ l, dget r (srcKey e.1) = some e.2) ∧
          ∀ k, k ∉ l.map (fun e => srcKey e.1) → dget r k = dget S.redirects k)) := by
  induction l with
  | nil =>
    intro S
    refine ⟨⟨fun _ => ⟨List.nodup_nil, fun e he => (by cases he)⟩, fun _ => rfl⟩, fun h => absurd rfl h, S.redirects, rfl,
      fun _ => ⟨fun e he => (by cases he), fun k _ => rfl⟩⟩
  | cons x l ih =>
    intro S
    obtain ⟨k, v⟩ := x
    have hstep : register S ((k, v) :: l) = match addRedirect S k v with
      | .ok S => register S l
      | .error e => (S, some e) := rfl
    rw [addRedirect_eq] at hstep
    by_cases hk : (dget S.redirects (srcKey k)).isSome = true
    · rw [if_pos hk] at hstep
      rw [hstep]
      refine ⟨⟨fun h => (by cases h), fun h => ?_⟩, fun _ => rfl, S.redirects, rfl, fun h => (by cases h)⟩
      have := h.2 (k, v) List.mem_cons_self
      rw [this] at hk
      cases hk
    · rw [if_neg hk] at hstep
      dsimp only at hstep
      have hk0 : dget S.redirects (srcKey k) = none := by
        cases hd : dget S.redirects (srcKey k) with
        | none => rfl
        | some w => rw [hd] at hk; exact absurd rfl hk
      rw [hstep]
      obtain ⟨h1, h2, r, h3, h4⟩ := ih { S with redirects := dset S.redirects (srcKey k) v }
      refine ⟨?_, h2, r, h3, ?_⟩
      · rw [h1]
        dsimp only
        rw [List.map_cons, List.nodup_cons]
        constructor
        · rintro ⟨ha, hb⟩
          have hn : srcKey k ∉ l.map (fun e => srcKey e.1) := by
            intro hm
            obtain ⟨e, he, hee⟩ := List.mem_map.mp hm
            have := hb e he
            rw [hee, dget_dset_self] at this
            cases this
          refine ⟨⟨hn, ha⟩, fun e he => ?_⟩
          rcases List.mem_cons.mp he with he | he
          · rw [he]; exact hk0
          · have := hb e he
            rw [dget_dset_ne] at this
            · exact this
            · intro hh; exact hn (List.mem_map.mpr ⟨e, he, hh.symm⟩)
        · rintro ⟨⟨hn, ha⟩, hb⟩
          refine ⟨ha, fun e he => ?_⟩
          rw [dget_dset_ne]
          · exact hb e (List.mem_cons_of_mem _ he)
          · intro hh; exact hn (List.mem_map.mpr ⟨e, he, hh.symm⟩)
      · intro hok
        obtain ⟨h5, h6⟩ := h4 hok
        have hnd := (h1.mp hok)
        dsimp only at hnd h6
        have hn : srcKey k ∉ l.map (fun e => srcKey e.1) := by
          intro hm
          obtain ⟨e, he, hee⟩ := List.mem_map.mp hm
          have := hnd.2 e he
          rw [hee, dget_dset_self] at this
          cases this
        refine ⟨fun e he => ?_, fun x hx => ?_⟩
        · rcases List.mem_cons.mp he with he | he
          · rw [he]
            show dget r (srcKey k) = some v
            rw [h6 _ hn, dget_dset_self]
          · exact h5 e he
        · rw [List.map_cons, List.mem_cons, not_or] at hx
          rw [h6 x hx.2, dget_dset_ne]
          exact fun e => hx.1 e.symm

/-- C117: setting up succeeds exactly if the sources of the redirects are different as paths and none was set before;
the only failure is the assertion. -/
theorem C117_setup (page : Str) (c : Conf) (S : Site) :
    ((setup page c S).2 = none ↔ (c.redirects.map fun e => srcKey e.1).Nodup ∧
      ∀ e ∈ c.redirects, dget S.redirects (srcKey e.1) = none) ∧
      ((setup page c S).2 ≠ none → (setup page c S).2 = some .assertion) := by
  obtain ⟨h1, h2, -⟩ := register_spec c.redirects { S with apps := fun p => if p ∈ c.paths then some page else S.apps p }
  exact ⟨h1, h2⟩

theorem setup_fields (page : Str) (c : Conf) (S : Site) :
    ∃ r, (setup page c S).1 = { S with redirects := r, apps := fun p => if p ∈ c.paths then some page else S.apps p } ∧
      ((setup page c S).2 = none →
        (∀ e ∈ c.redirects, dget r (srcKey e.1) = some e.2) ∧
          ∀ k, k ∉ c.redirects.map (fun e => srcKey e.1) → dget r k = dget S.redirects k) := by
  obtain ⟨-, -, r, h3, h4⟩ := register_spec c.redirects { S with apps := fun p => if p ∈ c.paths then some page else S.apps p }
  exact ⟨r, h3, h4⟩

/-- C117: a second application in the same process cannot be set up if it redirects any path the first one
redirected. -/
theorem C117_second_fails (page page' : Str) (c d : Conf) (S : Site) (h : (setup page c S).2 = none) (e f : Str × Str)
    (he : e ∈ c.redirects) (hf : f ∈ d.redirects) (hk : srcKey e.1 = srcKey f.1) :
    (setup page' d (setup page c S).1).2 = some .assertion := by
  apply (C117_setup _ _ _).2
  intro hn
  have := ((C117_setup _ _ _).1.mp hn).2 f hf
  obtain ⟨r, h1, h2⟩ := setup_fields page c S
  rw [h1, ← hk] at this
  have h3 := (h2 h).1 e he
  dsimp only at this
  rw [h3] at this
  cases this

theorem mem_of_dget_isSome {d : List (Str × Str)} {k : Str} (h : (dget d k).isSome) : ∃ v, (k, v) ∈ d := by
  cases hd : dget d k with
  | none => rw [hd] at h; cases h
  | some v => exact ⟨v, dget_mem hd⟩

/-- Equal images of different elements. -/
theorem not_nodup_map {α β : Type} (f : α → β) (l : List α) (a b : α) (ha : a ∈ l) (hb : b ∈ l) (hne : a ≠ b)
    (hf : f a = f b) : ¬ (l.map f).Nodup := by
  induction l with
  | nil => cases ha
  | cons x l ih =>
    rw [List.map_cons, List.nodup_cons]
    rintro ⟨h1, h2⟩
    rcases List.mem_cons.mp ha with e | ha
    · rcases List.mem_cons.mp hb with e' | hb
      · exact hne (e.trans e'.symm)
      · rw [← e, hf] at h1; exact h1 (List.mem_map_of_mem hb)
    · rcases List.mem_cons.mp hb with e' | hb
      · rw [← e', ← hf] at h1; exact h1 (List.mem_map_of_mem ha)
      · exact ih ha hb h2

/-- C117: two prefixes that are one path in two spellings stop the application from starting. -/
theorem C117_alias_fails (page : Str) (c : Conf) (S : Site) (ps : List Str) (h : (build c ps).2 = none) (p q : Str)
    (hp : p ∈ ps) (hq : q ∈ ps) (hne : rooted p ≠ rooted q) (hk : srcKey (rooted p) = srcKey (rooted q)) :
    (setup page (build c ps).1 S).2 = some .assertion := by
  apply (C117_setup _ _ _).2
  intro hn
  have hnd := ((C117_setup _ _ _).1.mp hn).1
  obtain ⟨h1, -, -⟩ := C117_exact c ps h
  have key : ∀ p ∈ ps, ∃ v, (rooted p, v) ∈ (build c ps).1.redirects := by
    intro p hp
    apply mem_of_dget_isSome
    rw [h1]
    cases dget c.redirects (rooted p) with
    | some v => rfl
    | none => exact (sends_prefix p ps hp).1
  obtain ⟨v, hv⟩ := key p hp
  obtain ⟨w, hw⟩ := key q hq
  exact not_nodup_map (fun e : Str × Str => srcKey e.1) _ _ _ hv hw (fun e => hne (congrArg Prod.fst e)) hk hnd

/-! ### A browser -/

theorem rooted_head (p : Str) : (rooted p).head? = some '/' := by
  unfold rooted
  split
  · assumption
  · rfl

theorem head_append (q x : Str) (h : q.head? = some '/') : (q ++ x).head? = some '/' := by
  cases q with
  | nil => cases h
  | cons c s => exact h

theorem srcKey_rooted (q : Str) (h : q.head? = some '/') : srcKey q = keyOf q := by
  unfold srcKey
  rw [if_pos]
  show (q.head? == some '/') = true
  rw [h]
  decide

theorem make_path (q : Str) (h : q.head? = some '/') (hq : '?' ∉ q) :
    Target.make .get q = .ok ⟨q, .origin q none⟩ := by
  cases q with
  | nil => cases h
  | cons c s =>
    have e : c = '/' := by simpa using h
    subst e
    exact make_get s (fun hm => hq (List.mem_cons_of_mem _ hm))

theorem fav_append (q x : Str) (hq : q.head? = some '/') (h : favName <+: q ++ '/' :: x) : favName <+: q := by
  rcases List.prefix_or_prefix_of_prefix h (List.prefix_append q ('/' :: x)) with h1 | h1
  · exact h1
  · obtain ⟨r, hr⟩ := h1
    rw [← hr] at h
    have h2 : r <+: '/' :: x := (List.prefix_append_right_inj q).mp h
    cases r with
    | nil => rw [List.append_nil] at hr; rw [hr]; exact List.prefix_rfl
    | cons a r =>
      have ha : a = '/' := by
        obtain ⟨t, ht⟩ := h2
        injection ht
      subst ha
      cases q with
      | nil => cases hq
      | cons c s =>
        exfalso
        have hm : '/' ∈ favName.tail := by
          rw [← hr]
          simp
        revert hm
        decide +kernel

theorem get_redirect (S : Site) (fs : Fs) (path raw dst : Str) (q : Option Str) (hfav : ¬ favName <+: path)
    (hnf : NoFile S fs path) (h : dget S.redirects (keyOf path) = some dst) :
    Files.get S fs ⟨raw, .origin path q⟩ = .ok (.redirect dst) := by
  unfold Files.get
  dsimp only
  rw [if_neg hfav, tryFile_none S fs _ _ hnf]
  dsimp only
  unfold tryRedirect
  rw [h]
  rfl

theorem follow_redirect (S : Site) (fs : Fs) (n : Nat) (q dst : Str) (h : q.head? = some '/') (hq : '?' ∉ q)
    (hg : Files.get S fs ⟨q, .origin q none⟩ = .ok (.redirect dst)) : follow S fs (n + 1) q = follow S fs n dst := by
  rw [follow.eq_def]
  dsimp only
  rw [make_path q h hq]
  simp only [Except.bind, hg]

theorem follow_zero (S : Site) (fs : Fs) (q dst : Str) (h : q.head? = some '/') (hq : '?' ∉ q)
    (hg : Files.get S fs ⟨q, .origin q none⟩ = .ok (.redirect dst)) : follow S fs 0 q = none := by
  rw [follow.eq_def]
  dsimp only
  rw [make_path q h hq]
  simp only [Except.bind, hg]

theorem follow_data (S : Site) (fs : Fs) (n : Nat) (q c : Str) (m : Option Str) (h : q.head? = some '/') (hq : '?' ∉ q)
    (hg : Files.get S fs ⟨q, .origin q none⟩ = .ok (.data c m)) : follow S fs n q = some (.data c m) := by
  rw [follow.eq_def]
  dsimp only
  rw [make_path q h hq]
  simp only [Except.bind, hg]

theorem sends_self (p : Str) (ps : List Str) (h : p ∈ ps) (hn : ∀ p' ∈ ps, indexOf (rooted p') ≠ rooted p) :
    sends (rooted p) ps = some (indexOf (rooted p)) := by
  induction ps with
  | nil => cases h
  | cons x ps ih =>
    show (if rooted p = rooted x then some (indexOf (rooted x)) else
      if rooted p = indexOf (rooted x) then some (appOf (rooted x)) else sends (rooted p) ps) = _
    by_cases e : rooted p = rooted x
    · rw [if_pos e, e]
    · rw [if_neg e, if_neg (fun h' => hn x List.mem_cons_self h'.symm)]
      rcases List.mem_cons.mp h with h | h
      · exact absurd (h ▸ rfl) e
      · exact ih h (fun p' hp' => hn p' (List.mem_cons_of_mem _ hp'))

theorem sends_index (p : Str) (ps : List Str) (h : p ∈ ps) (hn : ∀ p' ∈ ps, rooted p' ≠ indexOf (rooted p)) :
    sends (indexOf (rooted p)) ps = some (appOf (rooted p)) := by
  induction ps with
  | nil => cases h
  | cons x ps ih =>
    show (if indexOf (rooted p) = rooted x then some (indexOf (rooted x)) else
      if indexOf (rooted p) = indexOf (rooted x) then some (appOf (rooted x)) else sends (indexOf (rooted p)) ps) = _
    rw [if_neg (fun h' => hn x List.mem_cons_self h'.symm)]
    by_cases e : indexOf (rooted p) = indexOf (rooted x)
    · rw [if_pos e, List.append_cancel_right e]
    · rw [if_neg e]
      rcases List.mem_cons.mp h with h | h
      · exact absurd (h ▸ rfl) e
      · exact ih h (fun p' hp' => hn p' (List.mem_cons_of_mem _ hp'))

/-- C117: in an application just set up, whoever asks for a prefix, with whatever query, is sent to its index, from
there to its application, and gets the page; provided the configuration does not redirect one of the three paths
itself, no prefix is the index of another, there is no file in the way, and the prefix has no part "json" and is not below `/favicon`. -/
theorem C117_arrives (page : Str) (hpage : page ≠ []) (c : Conf) (ps : List Str) (S0 : Site) (fs : Fs)
    (h0 : S0.redirects = []) (hb : (build c ps).2 = none) (hs : (setup page (build c ps).1 S0).2 = none)
    (p : Str) (hp : p ∈ ps) (q : Str) (hq : q = if p.head? = some '/' then p else '/' :: p)
    (ho : dget c.redirects q = none) (hoi : dget c.redirects (q ++ "/index.html".toList) = none)
    (hn : ∀ p' ∈ ps, rooted p' ++ "/index.html".toList ≠ q) (hn' : ∀ p' ∈ ps, rooted p' ≠ q ++ "/index.html".toList)
    (hother : ∀ e ∈ (build c ps).1.redirects, srcKey e.1 ≠ keyOf (q ++ "/app.html".toList))
    (hfav : ¬ favName <+: q) (hj : "json".toList ∉ (splitOn '/' (q ++ "/app.html".toList)).tail)
    (f1 : NoFile S0 fs q) (f2 : NoFile S0 fs (q ++ "/index.html".toList)) (f3 : NoFile S0 fs (q ++ "/app.html".toList))
    (hqq : '?' ∉ q) :
    let S := (setup page (build c ps).1 S0).1
    (∀ raw query, Files.get S fs ⟨raw, .origin q query⟩ = .ok (.redirect (q ++ "/index.html".toList))) ∧
    (∀ raw query, Files.get S fs ⟨raw, .origin (q ++ "/index.html".toList) query⟩ = .ok (.redirect (q ++ "/app.html".toList))) ∧
    (∀ raw query, Files.get S fs ⟨raw, .origin (q ++ "/app.html".toList) query⟩ = .ok (.data page (some html))) ∧
    follow S fs 2 q = some (.data page (some html)) := by
  have eI : "/index.html".toList = sIndex := by decide +kernel
  have eA : "/app.html".toList = sApp := by decide +kernel
  intro S
  simp only [eI] at hoi hn hn' f2 ⊢
  simp only [eA] at hother hj f3 ⊢
  have hr : q = rooted p := hq
  have hhd : q.head? = some '/' := hr ▸ rooted_head p
  have hsends : sends q ps = some (q ++ sIndex) := by
    rw [hr]; exact sends_self p ps hp (fun p' hp' e => hn p' hp' (e.trans hr.symm))
  have hsends' : sends (q ++ sIndex) ps = some (q ++ sApp) := by
    rw [hr]; exact sends_index p ps hp (fun p' hp' e => hn' p' hp' (by rw [hr]; exact e))
  obtain ⟨h1, h2, -⟩ := C117_exact c ps hb
  obtain ⟨r, hS, hr2⟩ := setup_fields page (build c ps).1 S0
  obtain ⟨hr3, hr4⟩ := hr2 hs
  have hSr : S.redirects = r := by show ((setup page (build c ps).1 S0).1).redirects = r; rw [hS]
  have hSn : ∀ x, NoFile S0 fs x → NoFile S fs x := by
    intro x hx
    show NoFile (setup page (build c ps).1 S0).1 fs x
    rw [hS]
    exact hx
  have d1 : dget S.redirects (keyOf q) = some (q ++ sIndex) := by
    have := h1 q
    rw [ho, Option.none_or, hsends] at this
    rw [hSr, ← srcKey_rooted q hhd]
    exact hr3 _ (dget_mem this)
  have hhd2 : (q ++ sIndex).head? = some '/' := head_append q _ hhd
  have d2 : dget S.redirects (keyOf (q ++ sIndex)) = some (q ++ sApp) := by
    have := h1 (q ++ sIndex)
    rw [hoi, Option.none_or, hsends'] at this
    rw [hSr, ← srcKey_rooted _ hhd2]
    exact hr3 _ (dget_mem this)
  have d3 : dget S.redirects (keyOf (q ++ sApp)) = none := by
    rw [hSr, hr4, h0, dget_nil]
    intro hm
    obtain ⟨e, he, hee⟩ := List.mem_map.mp hm
    exact hother e he hee
  have g1 : ∀ raw query, Files.get S fs ⟨raw, .origin q query⟩ = .ok (.redirect (q ++ sIndex)) :=
    fun raw query => get_redirect S fs q raw _ query hfav (hSn _ f1) d1
  have g2 : ∀ raw query, Files.get S fs ⟨raw, .origin (q ++ sIndex) query⟩ = .ok (.redirect (q ++ sApp)) :=
    fun raw query => get_redirect S fs _ raw _ query (fun h => hfav (fav_append q _ hhd h)) (hSn _ f2) d2
  have happs : S.apps (q ++ sApp) = some page := by
    show ((setup page (build c ps).1 S0).1).apps (q ++ sApp) = some page
    rw [hS]
    exact if_pos ((h2 _).mpr (.inr ⟨p, hp, hr ▸ rfl⟩))
  have g3 : ∀ raw query, Files.get S fs ⟨raw, .origin (q ++ sApp) query⟩ = .ok (.data page (some html)) := by
    intro raw query
    refine (C70_fallback S fs (q ++ sApp) raw query (fun h => hfav (fav_append q _ hhd h)) (hSn _ f3) d3).trans ?_
    dsimp only
    rw [if_neg hj, happs]
    cases page with
    | nil => exact absurd rfl hpage
    | cons a b => rfl
  refine ⟨g1, g2, g3, ?_⟩
  have n2 : '?' ∉ q ++ sIndex := by
    intro hm
    rcases List.mem_append.mp hm with hm | hm
    · exact hqq hm
    · revert hm; decide
  have n3 : '?' ∉ q ++ sApp := by
    intro hm
    rcases List.mem_append.mp hm with hm | hm
    · exact hqq hm
    · revert hm; decide
  rw [follow_redirect S fs 1 q _ hhd hqq (g1 _ _), follow_redirect S fs 0 _ _ hhd2 n2 (g2 _ _)]
  exact follow_data S fs 0 _ _ _ (head_append q _ hhd) n3 (g3 _ _)

/-- C117: a redirect of the configuration itself wins: it is followed in place of that of the prefix. -/
theorem C117_own (page : Str) (c : Conf) (ps : List Str) (S0 : Site) (fs : Fs)
    (hb : (build c ps).2 = none) (hs : (setup page (build c ps).1 S0).2 = none)
    (q dst : Str) (hd : dget c.redirects q = some dst) (hhd : q.head? = some '/')
    (hfav : ¬ favName <+: q) (f1 : NoFile S0 fs q) :
    ∀ raw query, Files.get (setup page (build c ps).1 S0).1 fs ⟨raw, .origin q query⟩ = .ok (.redirect dst) := by
  intro raw query
  obtain ⟨h1, -, -⟩ := C117_exact c ps hb
  obtain ⟨r, hS, hr2⟩ := setup_fields page (build c ps).1 S0
  obtain ⟨hr3, -⟩ := hr2 hs
  rw [hS]
  refine get_redirect _ fs q raw dst query hfav ?_ ?_
  · exact f1
  show dget r (keyOf q) = some dst
  rw [← srcKey_rooted q hhd]
  have := h1 q
  rw [hd, Option.some_or] at this
  exact hr3 _ (dget_mem this)

/-- C117: paths that are no source of a redirect and no path of the application are answered as before. -/
theorem C117_others (page : Str) (c : Conf) (ps : List Str) (S0 : Site) (fs : Fs)
    (hs : (setup page (build c ps).1 S0).2 = none) (x : Str)
    (hr : ∀ e ∈ (build c ps).1.redirects, srcKey e.1 ≠ keyOf x) (hp : x ∉ (build c ps).1.paths) :
    ∀ raw query, Files.get (setup page (build c ps).1 S0).1 fs ⟨raw, .origin x query⟩ = Files.get S0 fs ⟨raw, .origin x query⟩ := by
  intro raw query
  obtain ⟨r, hS, hr2⟩ := setup_fields page (build c ps).1 S0
  obtain ⟨-, hr4⟩ := hr2 hs
  rw [hS]
  have hk : dget r (keyOf x) = dget S0.redirects (keyOf x) := by
    apply hr4
    intro hm
    obtain ⟨e, he, hee⟩ := List.mem_map.mp hm
    exact hr e he hee
  have ht : ∀ (l : List PPath) (rest : Str), tryFile ({ S0 with redirects := r, apps := fun p => if p ∈ (build c ps).1.paths then some page else S0.apps p }) fs rest l
      = tryFile S0 fs rest l := by
    intro l rest
    induction l with
    | nil => rfl
    | cons s l ih => rw [tryFile, tryFile, ih]
  unfold Files.get
  dsimp only
  rw [ht]
  unfold tryRedirect
  dsimp only
  rw [hk, if_neg hp]

/-- C117: if the configuration sends the index of a prefix back to the prefix, a browser never arrives. -/
theorem C117_loop_fails (page : Str) (c : Conf) (ps : List Str) (S0 : Site) (fs : Fs)
    (hb : (build c ps).2 = none) (hs : (setup page (build c ps).1 S0).2 = none) (p : Str) (hp : p ∈ ps) (q : Str)
    (hq : q = rooted p) (ho : dget c.redirects q = none) (hoi : dget c.redirects (indexOf q) = some q)
    (hn : ∀ p' ∈ ps, indexOf (rooted p') ≠ q) (hfav : ¬ favName <+: q)
    (f1 : NoFile S0 fs q) (f2 : NoFile S0 fs (indexOf q)) (hqq : '?' ∉ q) (n : Nat) :
    follow (setup page (build c ps).1 S0).1 fs n q = none ∧ follow (setup page (build c ps).1 S0).1 fs n (indexOf q) = none := by
  have hhd : q.head? = some '/' := hq ▸ rooted_head p
  have hhd2 : (indexOf q).head? = some '/' := head_append q _ hhd
  have n2 : '?' ∉ indexOf q := by
    intro hm
    rcases List.mem_append.mp hm with hm | hm
    · exact hqq hm
    · revert hm; decide
  have g2 := C117_own page c ps S0 fs hb hs (indexOf q) q hoi hhd2 (fun h => hfav (fav_append q _ hhd h)) f2
  have g1 : ∀ raw query, Files.get (setup page (build c ps).1 S0).1 fs ⟨raw, .origin q query⟩ = .ok (.redirect (indexOf q)) := by
    intro raw query
    obtain ⟨h1, -, -⟩ := C117_exact c ps hb
    obtain ⟨r, hS, hr2⟩ := setup_fields page (build c ps).1 S0
    obtain ⟨hr3, -⟩ := hr2 hs
    rw [hS]
    refine get_redirect _ fs q raw _ query hfav ?_ ?_
    · exact f1
    show dget r (keyOf q) = _
    rw [← srcKey_rooted q hhd]
    have := h1 q
    rw [ho, Option.none_or, hq, sends_self p ps hp (fun p' hp' e => hn p' hp' (e.trans hq.symm)), ← hq] at this
    exact hr3 _ (dget_mem this)
  induction n with
  | zero => exact ⟨follow_zero _ fs q _ hhd hqq (g1 _ _), follow_zero _ fs _ _ hhd2 n2 (g2 _ _)⟩
  | succ n ih =>
    rw [follow_redirect _ fs n q _ hhd hqq (g1 _ _), follow_redirect _ fs n _ _ hhd2 n2 (g2 _ _)]
    exact ⟨ih.2, ih.1⟩

/-! ### The browser at the start -/

/-- C117: for each scheme that is switched on, and no other, the address of every port named like its server is opened,
in the order of the configuration, first those without TLS. -/
theorem C117_opened (on : Bool → Bool) (host fragment : Str) (l : List (Str × Nat)) :
    (launch on host fragment (some l)).2 = none ∧
      (launch on host fragment (some l)).1 =
        ([false, true].filter on).flatMap fun tls =>
          (l.filter fun p => contains ((if tls then ['h', 't', 't', 'p', 's'] else ['h', 't', 't', 'p']) ++
              ['_', 's', 'e', 'r', 'v', 'e', 'r']) p.1).map fun p =>
            (if tls then ['h', 't', 't', 'p', 's'] else ['h', 't', 't', 'p']) ++ [':', '/', '/'] ++ host ++ [':'] ++
              (toString p.2).toList ++ ['/'] ++ (if fragment = [] then [] else '#' :: fragment) := by
  unfold launch open1
  cases h1 : on false <;> cases h2 : on true <;> simp [h1, h2, uri, scheme, sServer]

/-- C117: a port is chosen by a part of its name, wherever it stands. -/
theorem C117_contains (sub s : Str) : contains sub s = true ↔ ∃ a b, s = a ++ sub ++ b := by
  induction s with
  | nil =>
    rw [contains, List.isPrefixOf_iff_prefix]
    constructor
    · intro h
      have : sub = [] := List.prefix_nil.mp h
      exact ⟨[], [], by rw [this]; rfl⟩
    · rintro ⟨a, b, h⟩
      have : a ++ sub ++ b = [] := h.symm
      simp at this
      rw [this.2.1]
      exact List.prefix_rfl
  | cons c s ih =>
    rw [contains, Bool.or_eq_true, List.isPrefixOf_iff_prefix, ih]
    constructor
    · rintro (⟨b, h⟩ | ⟨a, b, h⟩)
      · exact ⟨[], b, h.symm⟩
      · exact ⟨c :: a, b, by rw [h]; rfl⟩
    · rintro ⟨a, b, h⟩
      cases a with
      | nil => exact .inl ⟨b, h.symm⟩
      | cons x a =>
        refine .inr ⟨a, b, ?_⟩
        simp only [List.cons_append, List.cons.injEq] at h
        exact h.2

/-- C117: a name selects a port for at most one scheme through one place: the text for TLS is never found in a name
because of the one without. -/
theorem C117_schemes (a b : Str) (ha : 'h' ∉ a) (hb : 'h' ∉ b) :
    contains (scheme true ++ sServer) (a ++ (scheme false ++ sServer) ++ b) = false := by
  cases hc : contains (scheme true ++ sServer) (a ++ (scheme false ++ sServer) ++ b) with
  | false => rfl
  | true =>
    exfalso
    obtain ⟨x, y, h⟩ := (C117_contains _ _).mp hc
    -- the only 'h' decides where the match starts
    have hx : 'h' ∉ x := by
      intro hm
      have h1 := congrArg (List.count 'h') h
      simp only [List.count_append] at h1
      have e1 : List.count 'h' a = 0 := List.count_eq_zero.mpr ha
      have e2 : List.count 'h' b = 0 := List.count_eq_zero.mpr hb
      have e3 : List.count 'h' (scheme false) = 1 := by decide
      have e4 : List.count 'h' (scheme true) = 1 := by decide
      have e5 : List.count 'h' sServer = 0 := by decide
      have e6 : 0 < List.count 'h' x := List.count_pos_iff.mpr hm
      omega
    have hax : a = x := by
      have t1 := congrArg (List.takeWhile (· != 'h')) h
      have key : ∀ (u : Str) (w : Str), 'h' ∉ u → (u ++ 'h' :: w).takeWhile (· != 'h') = u := by
        intro u w hu
        induction u with
        | nil => rfl
        | cons c u ih =>
          have hc : c ≠ 'h' := fun e => hu (e ▸ List.mem_cons_self)
          rw [List.cons_append, List.takeWhile_cons_of_pos (by simpa using hc), ih (fun hm => hu (List.mem_cons_of_mem _ hm))]
      have l1 : a ++ (scheme false ++ sServer) ++ b = a ++ 'h' :: (['t', 't', 'p'] ++ sServer ++ b) := by simp [scheme]
      have l2 : x ++ (scheme true ++ sServer) ++ y = x ++ 'h' :: (['t', 't', 'p', 's'] ++ sServer ++ y) := by simp [scheme]
      rw [l1, l2, key _ _ ha, key _ _ hx] at t1
      exact t1
    subst hax
    simp [scheme, sServer] at h

/-- C117: with the browser switched on, a configuration without ports cannot be set up. -/
theorem C117_ports_fails (on : Bool → Bool) (tls : Bool) (h : on tls = true) (host fragment : Str) :
    (launch on host fragment none) = ([], some .key) := by
  unfold launch open1
  cases h1 : on false <;> cases h2 : on true <;> cases tls <;> simp_all

/-! ### Cases -/

def exConf : Conf := ⟨[(['/'], sIndex), (sIndex, sApp)], [sApp]⟩

def exSite : Site where
  cwd := []
  paths := [⟨true, [['w']]⟩]
  redirects := []
  favicon := []
  guess := fun _ => (none, none)
  render := .ok
  json := fun _ => []
  apps := fun _ => none

def exFs : Fs := ⟨fun _ => false, fun _ => []⟩

/-- The defaults of `server_base.yaml` and two prefixes: both arrive; the second spelling of a prefix is refused. -/
theorem C117_cases :
    (build exConf [['a'], ['/', 'b', '/', 'c']]).2 = none ∧
    (build exConf [['a'], ['/', 'b', '/', 'c']]).1.paths.length = 3 ∧
    (setup ['p'] (build exConf [['a'], ['/', 'b', '/', 'c']]).1 exSite).2 = none ∧
    follow (setup ['p'] (build exConf [['a'], ['/', 'b', '/', 'c']]).1 exSite).1 exFs 2 ['/', 'b', '/', 'c'] = some (.data ['p'] (some html)) ∧
    follow (setup ['p'] (build exConf [['a'], ['/', 'b', '/', 'c']]).1 exSite).1 exFs 2 ['/'] = some (.data ['p'] (some html)) ∧
    follow (setup ['p'] (build exConf [['a'], ['/', 'b', '/', 'c']]).1 exSite).1 exFs 1 ['/', 'a'] = none ∧
    (build exConf [['a'], []]).2 = some .assertion ∧
    (setup ['p'] (build ⟨[(['/', 'a'] ++ sIndex, ['/', 'a'])], []⟩ [['a']]).1 exSite).2 = none ∧
    follow (setup ['p'] (build ⟨[(['/', 'a'] ++ sIndex, ['/', 'a'])], []⟩ [['a']]).1 exSite).1 exFs 9 ['/', 'a'] = none ∧
    (setup ['p'] (build exConf [['a'], ['.', '/', 'a']]).1 exSite).2 = some .assertion ∧
    rooted ['a'] ≠ rooted ['.', '/', 'a'] ∧ srcKey (rooted ['a']) = srcKey (rooted ['.', '/', 'a']) ∧
    (launch (fun _ => true) ['l'] ['f'] (some [(['h', 't', 't', 'p', '_', 's', 'e', 'r', 'v', 'e', 'r'], 80), (['x'], 9)])).1.length = 1 := by
  decide +kernel

end Verif.Server.Prefixes
