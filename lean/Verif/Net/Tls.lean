import Verif.Base
import Verif.Dict
/-!
C118: keyword arguments that ask for TLS: `net/ssl.py`, and who calls it: `net/tcp/create.py` 22–32,
`net/tcp/connection.py` 111–149 (create, restart) and 170–172 (serve), `net/websocket/connection.py`
92–117 (clients) and 214–221 (serve), `commands/server.py` 17–18, 42–57 and 66–70.

Values are abstract: `truthy` is Python's truth and `none` is `None`. What `ssl` does with a context is
left out; making one either works or raises. Parameters named `client` in the keyword arguments are left
out.
-/
namespace Verif.Tls
open Verif

abbrev Str := List Char

/-- Python values as far as they matter. -/
structure Py where
  V : Type
  none : V
  truthy : V → Bool
  ofBool : Bool → V

variable (P : Py)

/-- An `ssl.SSLContext` as made here: its purpose, the three ways to name authorities, the chain. -/
structure Ctx where
  client : Bool
  cafile : P.V
  capath : P.V
  cadata : P.V
  cert : Option (P.V × P.V)

/-- A keyword argument's value. -/
inductive Val where
  | py (v : P.V)
  | ctx (c : Ctx P)

variable {P}

abbrev Kwargs (P : Py) := List (Str × Val P)

def kUse : Str := ['u', 's', 'e', '_', 's', 's', 'l']
def kCafile : Str := ['c', 'a', 'f', 'i', 'l', 'e']
def kCapath : Str := ['c', 'a', 'p', 'a', 't', 'h']
def kCadata : Str := ['c', 'a', 'd', 'a', 't', 'a']
def kCert : Str := ['c', 'e', 'r', 't', 'f', 'i', 'l', 'e']
def kKey : Str := ['k', 'e', 'y', 'f', 'i', 'l', 'e']
def kSsl : Str := ['s', 's', 'l']

/-- `key in kwargs`. -/
def has (kw : Kwargs P) (k : Str) : Bool := (dget kw k).isSome

/-- `kwargs.pop(key, None)`: the value (a context where a Python value is wanted does not occur; it
counts as `None`). -/
def popValue (kw : Kwargs P) (k : Str) : P.V :=
  match dget kw k with
  | some (.py v) => v
  | _ => P.none

/-- The truth of `kwargs.pop("use_ssl", False)`. -/
def popTruth (kw : Kwargs P) : Bool :=
  match dget kw kUse with
  | some (.py v) => P.truthy v
  | some (.ctx _) => true
  | none => false

/-- `handle_possible_ssl`, ssl.py 10–33; `works` says whether making the context raises. -/
def handle (works : Ctx P → Option PyErr) (client : Bool) (kw : Kwargs P) : Except PyErr (Kwargs P) :=
  let use := popTruth kw
  let kw := dpop kw kUse
  if use || (has kw kCafile || has kw kCapath || has kw kCadata) || has kw kCert then
    let c : Ctx P := ⟨client, popValue kw kCafile, popValue kw kCapath, popValue kw kCadata, none⟩
    let kw := dpop (dpop (dpop kw kCafile) kCapath) kCadata
    let r : Ctx P × Kwargs P :=
      if has kw kCert then
        ({ c with cert := some (popValue kw kCert, popValue kw kKey) }, dpop (dpop kw kCert) kKey)
      else (c, kw)
    match works r.1 with
    | some e => .error e
    | none => .ok (dset r.2 kSsl (.ctx r.1))
  else .ok kw

/-! ### Callers -/

/-- A TCP client: `_conn_kwargs` (connection.py 145–147) and the arguments of every socket made. -/
structure Client (P : Py) where
  kwargs : Kwargs P
  made : List (Except PyErr (Kwargs P))

/-- `create_connection`, connection.py 129–149 and create.py 22–32. -/
def Client.create (works : Ctx P → Option PyErr) (kw : Kwargs P) : Client P := ⟨kw, [handle works true kw]⟩

/-- `restart`, connection.py 111–127. -/
def Client.restart (works : Ctx P → Option PyErr) (c : Client P) : Client P :=
  { c with made := c.made ++ [handle works true c.kwargs] }

/-- Websocket clients, websocket/connection.py 92–117: `setdefault("use_ssl", uri.startswith("wss"))`. -/
def wsClient (works : Ctx P → Option PyErr) (uri : Str) (kw : Kwargs P) : Except PyErr (Kwargs P) :=
  let kw := if has kw kUse then kw else kw ++ [(kUse, .py (P.ofBool (['w', 's', 's'].isPrefixOf uri)))]
  handle works true kw

/-- `get_kwargs`, commands/server.py 47–59: the options that are not `None`, in the order of `PASSTHROUGH`; `opts` is
`getattr(args, opt, None)`. -/
def getKwargs (opts : Str → P.V) (isNone : P.V → Bool) (kw : Kwargs P) : Kwargs P :=
  [kCafile, kCapath, kCadata, kCert, kKey].foldl
    (fun kw o => if isNone (opts o) then kw else dset kw o (.py (opts o))) kw

def kHost : Str := ['h', 'o', 's', 't']
def kPort : Str := ['p', 'o', 'r', 't']
def kRemote : Str := ['r', 'e', 'm', 'o', 't', 'e', '_', 'a', 'd', 'd', 'r']

/-- The keyword arguments of the loopback client, commands/server.py 62–77. -/
def loopKwargs (websocket udp : Bool) (host port remote : P.V) : Kwargs P :=
  if websocket then []
  else if !udp then [(kHost, .py host), (kPort, .py port)]
  else [(kRemote, .py remote)]

/-- `is_ssl`, commands/server.py 42–44. -/
def isSsl (kw : Kwargs P) : Bool := [kCafile, kCapath, kCadata, kCert].any (has kw)

/-- The scheme of the loopback client's address, commands/server.py 66–70. -/
def loopScheme (kw : Kwargs P) : Str := ['w', 's'] ++ (if isSsl kw then ['s'] else []) ++ [':', '/', '/']

/-! ### Theorems -/

theorem has_dpop (kw : Kwargs P) (k x : Str) : has (dpop kw k) x = (has kw x && (k != x)) := by
  unfold has
  rw [dget_dpop]
  by_cases h : k = x
  · subst h; simp
  · simp [h]

theorem popValue_dpop (kw : Kwargs P) (k x : Str) (h : k ≠ x) : popValue (dpop kw k) x = popValue kw x := by
  unfold popValue
  rw [dget_dpop, if_neg h]

/-- What asks for TLS: a true `use_ssl`, or one of four names, whatever its value. -/
def asks (kw : Kwargs P) : Prop :=
  (∃ v, dget kw "use_ssl".toList = some (.py v) ∧ P.truthy v = true) ∨ (∃ c, dget kw "use_ssl".toList = some (.ctx c)) ∨
    ∃ k ∈ ["cafile".toList, "capath".toList, "cadata".toList, "certfile".toList], ∃ v, dget kw k = some v

theorem names : "use_ssl".toList = kUse ∧ "cafile".toList = kCafile ∧ "capath".toList = kCapath ∧
    "cadata".toList = kCadata ∧ "certfile".toList = kCert ∧ "keyfile".toList = kKey ∧ "ssl".toList = kSsl := by
  decide +kernel

theorem has_iff (kw : Kwargs P) (k : Str) : has kw k = true ↔ ∃ v, dget kw k = some v := by
  unfold has
  exact Option.isSome_iff_exists

theorem asks_iff (kw : Kwargs P) : asks kw ↔
    (popTruth kw || (has (dpop kw kUse) kCafile || has (dpop kw kUse) kCapath || has (dpop kw kUse) kCadata) ||
      has (dpop kw kUse) kCert) = true := by
  obtain ⟨e1, e2, e3, e4, e5, -, -⟩ := names
  unfold asks
  rw [e1, e2, e3, e4, e5]
  have hx : ∀ k, kUse ≠ k → has (dpop kw kUse) k = has kw k := by
    intro k hk
    rw [has_dpop]
    simp [hk]
  rw [hx kCafile (by decide), hx kCapath (by decide), hx kCadata (by decide), hx kCert (by decide)]
  simp only [Bool.or_eq_true, has_iff, List.mem_cons, List.not_mem_nil, or_false, exists_eq_or_imp, exists_eq_left]
  have ht : popTruth kw = true ↔ (∃ v, dget kw kUse = some (.py v) ∧ P.truthy v = true) ∨ ∃ c, dget kw kUse = some (.ctx c) := by
    unfold popTruth
    cases dget kw kUse with
    | none => simp
    | some w => cases w <;> simp
  rw [ht]
  constructor
  · rintro (h | h | h | h | h | h)
    · exact .inl (.inl (.inl h))
    · exact .inl (.inl (.inr h))
    · exact .inl (.inr (.inl (.inl h)))
    · exact .inl (.inr (.inl (.inr h)))
    · exact .inl (.inr (.inr h))
    · exact .inr h
  · rintro (((h | h) | (h | h) | h) | h)
    · exact .inl h
    · exact .inr (.inl h)
    · exact .inr (.inr (.inl h))
    · exact .inr (.inr (.inr (.inl h)))
    · exact .inr (.inr (.inr (.inr (.inl h))))
    · exact .inr (.inr (.inr (.inr (.inr h))))

/-- The context that is made. -/
def contextOf (client : Bool) (kw : Kwargs P) : Ctx P where
  client := client
  cafile := popValue kw kCafile
  capath := popValue kw kCapath
  cadata := popValue kw kCadata
  cert := if has kw kCert then some (popValue kw kCert, popValue kw kKey) else none

/-- The arguments that are left. -/
def left (kw : Kwargs P) : Kwargs P :=
  let kw := dpop (dpop (dpop (dpop kw kUse) kCafile) kCapath) kCadata
  if has kw kCert then dpop (dpop kw kCert) kKey else kw

theorem handle_eq (works : Ctx P → Option PyErr) (client : Bool) (kw : Kwargs P) [Decidable (asks kw)] :
    handle works client kw =
      if asks kw then
        (match works (contextOf client kw) with
         | some e => .error e
         | none => .ok (dset (left kw) kSsl (.ctx (contextOf client kw))))
      else .ok (dpop kw kUse) := by
  unfold handle
  dsimp only
  by_cases h : asks kw
  · rw [if_pos ((asks_iff kw).mp h), if_pos h]
    have hc : has (dpop (dpop (dpop (dpop kw kUse) kCafile) kCapath) kCadata) kCert = has kw kCert := by
      rw [has_dpop, has_dpop, has_dpop, has_dpop]
      rw [show (kUse != kCert) = true by decide, show (kCafile != kCert) = true by decide,
        show (kCapath != kCert) = true by decide, show (kCadata != kCert) = true by decide]
      simp
    have v1 : popValue (dpop kw kUse) kCafile = popValue kw kCafile := popValue_dpop _ _ _ (by decide)
    have v2 : popValue (dpop kw kUse) kCapath = popValue kw kCapath := popValue_dpop _ _ _ (by decide)
    have v3 : popValue (dpop kw kUse) kCadata = popValue kw kCadata := popValue_dpop _ _ _ (by decide)
    have v4 : ∀ x, kUse ≠ x → kCafile ≠ x → kCapath ≠ x → kCadata ≠ x →
        popValue (dpop (dpop (dpop (dpop kw kUse) kCafile) kCapath) kCadata) x = popValue kw x := by
      intro x a b c d
      rw [popValue_dpop _ _ _ d, popValue_dpop _ _ _ c, popValue_dpop _ _ _ b, popValue_dpop _ _ _ a]
    unfold contextOf left
    dsimp only
    rw [hc, v1, v2, v3]
    by_cases hk : has kw kCert = true
    · simp only [hk, if_true]
      rw [v4 kCert (by decide) (by decide) (by decide) (by decide), v4 kKey (by decide) (by decide) (by decide) (by decide)]
    · simp only [hk]
      rfl
  · rw [if_neg (fun h' => h ((asks_iff kw).mpr h')), if_neg h]

theorem dget_left (kw : Kwargs P) (x : Str) : dget (left kw) x =
    if x = kUse ∨ x = kCafile ∨ x = kCapath ∨ x = kCadata ∨ x = kCert ∨ (x = kKey ∧ has kw kCert = true) then none
    else dget kw x := by
  have hc : has (dpop (dpop (dpop (dpop kw kUse) kCafile) kCapath) kCadata) kCert = has kw kCert := by
    rw [has_dpop, has_dpop, has_dpop, has_dpop]
    rw [show (kUse != kCert) = true by decide, show (kCafile != kCert) = true by decide,
      show (kCapath != kCert) = true by decide, show (kCadata != kCert) = true by decide]
    simp
  unfold left
  dsimp only
  rw [hc]
  by_cases h : has kw kCert = true
  · rw [if_pos h]
    simp only [dget_dpop, h, and_true]
    by_cases e1 : x = kUse
    · subst e1; simp
    by_cases e2 : x = kCafile
    · subst e2; simp
    by_cases e3 : x = kCapath
    · subst e3; simp
    by_cases e4 : x = kCadata
    · subst e4; simp
    by_cases e5 : x = kCert
    · subst e5; simp
    by_cases e6 : x = kKey
    · subst e6; simp
    simp [e1, e2, e3, e4, e5, e6, Ne.symm e1, Ne.symm e2, Ne.symm e3, Ne.symm e4, Ne.symm e5, Ne.symm e6]
  · rw [if_neg h]
    simp only [dget_dpop, h, and_false, or_false, Bool.false_eq_true]
    have hn : dget kw kCert = none := by
      unfold has at h
      cases hd : dget kw kCert with
      | none => rfl
      | some v => rw [hd] at h; exact absurd rfl h
    by_cases e1 : x = kUse
    · subst e1; simp
    by_cases e2 : x = kCafile
    · subst e2; simp
    by_cases e3 : x = kCapath
    · subst e3; simp
    by_cases e4 : x = kCadata
    · subst e4; simp
    by_cases e5 : x = kCert
    · subst e5; simp [hn]
    simp [e1, e2, e3, e4, e5, Ne.symm e1, Ne.symm e2, Ne.symm e3, Ne.symm e4]

/-- C118: without a request for TLS all arguments but `use_ssl` are handed on as they are, in their order, and nothing
raises. -/
theorem C118_plain (works : Ctx P → Option PyErr) (client : Bool) (kw : Kwargs P) (h : ¬ asks kw) :
    handle works client kw = .ok (kw.filter fun e => decide (e.1 ≠ "use_ssl".toList)) := by
  classical
  rw [handle_eq, if_neg h, names.1]
  congr 1
  apply List.filter_congr
  intro e _
  by_cases he : e.1 = kUse
  · simp [he]
  · simp [he]

/-- C118: a request for TLS makes one context, for the right side, of exactly the authorities and the certificate
that were named; it is handed on as `ssl`, and fails only if making it fails. -/
theorem C118_context (works : Ctx P → Option PyErr) (client : Bool) (kw : Kwargs P) (h : asks kw) :
    ∃ c : Ctx P, c.client = client ∧
      c.cafile = popValue kw "cafile".toList ∧ c.capath = popValue kw "capath".toList ∧
      c.cadata = popValue kw "cadata".toList ∧
      c.cert = (if (dget kw "certfile".toList).isSome then
        some (popValue kw "certfile".toList, popValue kw "keyfile".toList) else none) ∧
      (∀ e, works c = some e → handle works client kw = .error e) ∧
      (works c = none → ∃ out, handle works client kw = .ok out ∧ dget out "ssl".toList = some (.ctx c)) := by
  classical
  obtain ⟨e1, e2, e3, e4, e5, e6, e7⟩ := names
  rw [e2, e3, e4, e5, e6, e7]
  refine ⟨contextOf client kw, rfl, rfl, rfl, rfl, rfl, fun e he => ?_, fun hw => ?_⟩
  · rw [handle_eq, if_pos h, he]
  · rw [handle_eq, if_pos h, hw]
    exact ⟨_, rfl, dget_dset_self _ _ _⟩

/-- C118: with TLS, what asked for it is taken away and every other argument is handed on unchanged. -/
theorem C118_rest (works : Ctx P → Option PyErr) (client : Bool) (kw out : Kwargs P) (h : handle works client kw = .ok out)
    (ha : asks kw) (x : Str) (hx : x ≠ "ssl".toList) : dget out x =
      if x ∈ ["use_ssl".toList, "cafile".toList, "capath".toList, "cadata".toList, "certfile".toList] ∨
        (x = "keyfile".toList ∧ (dget kw "certfile".toList).isSome) then none else dget kw x := by
  classical
  obtain ⟨e1, e2, e3, e4, e5, e6, e7⟩ := names
  rw [e7] at hx
  rw [e1, e2, e3, e4, e5, e6]
  rw [handle_eq, if_pos ha] at h
  cases hw : works (contextOf client kw) with
  | some e => rw [hw] at h; cases h
  | none =>
    rw [hw] at h
    injection h with h
    rw [← h, dget_dset_ne _ _ _ _ (fun e => hx e.symm), dget_left]
    simp only [List.mem_cons, List.not_mem_nil, or_false, or_assoc]
    rfl

/-- C118: handling twice is handling once. -/
theorem C118_again (works : Ctx P → Option PyErr) (client other : Bool) (kw out : Kwargs P)
    (h : handle works client kw = .ok out) : handle works other out = .ok out := by
  classical
  have key : ∀ k, k ∈ ["use_ssl".toList, "cafile".toList, "capath".toList, "cadata".toList, "certfile".toList] → dget out k = none := by
    intro k hk
    by_cases ha : asks kw
    · rw [C118_rest works client kw out h ha k, if_pos (.inl hk)]
      revert k
      decide +kernel
    · have h' := C118_plain works client kw ha
      have h2 : handle works client kw = .ok (dpop kw kUse) := by rw [handle_eq, if_neg ha]
      rw [h2] at h
      injection h with h
      rw [← h, dget_dpop]
      obtain ⟨e1, e2, e3, e4, e5, e6, e7⟩ := names
      split
      · rfl
      · rename_i hne
        cases hd : dget kw k with
        | none => rfl
        | some v =>
          exfalso
          apply ha
          rw [e1] at hk
          rcases List.mem_cons.mp hk with hk | hk
          · exact absurd hk.symm hne
          · exact .inr (.inr ⟨k, hk, v, hd⟩)
  have hn : ¬ asks out := by
    rintro (⟨v, hv, -⟩ | ⟨c, hc⟩ | ⟨k, hk, v, hv⟩)
    · rw [key _ (by simp)] at hv; cases hv
    · rw [key _ (by simp)] at hc; cases hc
    · rw [key k (List.mem_cons_of_mem _ hk)] at hv; cases hv
  rw [C118_plain works other out hn]
  congr 1
  rw [List.filter_eq_self]
  intro e he
  have h0 := key "use_ssl".toList (by simp)
  rw [dget_none_iff, List.any_eq_false] at h0
  have := h0 e he
  simpa using this

/-- C118: a connection that is made again, however often, is made with the same arguments, so with TLS exactly if it
had it the first time. -/
theorem C118_restart (works : Ctx P → Option PyErr) (kw : Kwargs P) (n : Nat) :
    (Nat.repeat (Client.restart works) n (Client.create works kw)).made = List.replicate (n + 1) (handle works true kw) := by
  have key : (Nat.repeat (Client.restart works) n (Client.create works kw)).kwargs = kw ∧
      (Nat.repeat (Client.restart works) n (Client.create works kw)).made =
        List.replicate (n + 1) (handle works true kw) := by
    induction n with
    | zero => exact ⟨rfl, rfl⟩
    | succ n ih =>
      refine ⟨ih.1, ?_⟩
      show (Nat.repeat (Client.restart works) n (Client.create works kw)).made ++ [handle works true
        (Nat.repeat (Client.restart works) n (Client.create works kw)).kwargs] = _
      rw [ih.1, ih.2]
      exact List.replicate_succ'.symm
  exact key.2

/-- C118: a websocket client given nothing but an address uses TLS exactly if the address starts with `wss`, then
with a context of the system's authorities. -/
theorem C118_address (works : Ctx P → Option PyErr) (uri : Str) (kw : Kwargs P) (hb : ∀ b, P.truthy (P.ofBool b) = b)
    (h : ¬ asks kw) (hu : dget kw "use_ssl".toList = none) (hc : works ⟨true, P.none, P.none, P.none, none⟩ = none) :
    ∃ out, wsClient works uri kw = .ok out ∧
      (if "wss".toList <+: uri then dget out "ssl".toList = some (.ctx ⟨true, P.none, P.none, P.none, none⟩)
       else out = kw) := by
  classical
  obtain ⟨e1, e2, e3, e4, e5, e6, e7⟩ := names
  have e8 : "wss".toList = ['w', 's', 's'] := by decide +kernel
  rw [e1] at hu
  rw [e7, e8]
  have hn : ∀ k ∈ [kCafile, kCapath, kCadata, kCert], dget kw k = none := by
    intro k hk
    cases hd : dget kw k with
    | none => rfl
    | some v => exact absurd (.inr (.inr ⟨k, by rw [e2, e3, e4, e5]; exact hk, v, hd⟩)) h
  have hh : has kw kUse = false := by unfold has; rw [hu]; rfl
  unfold wsClient
  rw [hh]
  simp only [Bool.false_eq_true, if_false]
  have hw : ∀ x, dget (kw ++ [(kUse, Val.py (P.ofBool (['w', 's', 's'].isPrefixOf uri)))]) x =
      if x = kUse then some (.py (P.ofBool (['w', 's', 's'].isPrefixOf uri))) else dget kw x := by
    intro x
    rw [dget_append, dget_cons, dget_nil]
    by_cases e : x = kUse
    · subst e; rw [hu]; simp
    · rw [if_neg e, if_neg (fun h => e h.symm)]; simp
  by_cases hp : ['w', 's', 's'] <+: uri
  · simp only [if_pos hp]
    have hp' : ['w', 's', 's'].isPrefixOf uri = true := List.isPrefixOf_iff_prefix.mpr hp
    have ha : asks (kw ++ [(kUse, Val.py (P.ofBool (['w', 's', 's'].isPrefixOf uri)))]) :=
      .inl ⟨P.ofBool true, by rw [e1, hw, if_pos rfl, hp'], hb true⟩
    have hcx : contextOf true (kw ++ [(kUse, Val.py (P.ofBool (['w', 's', 's'].isPrefixOf uri)))]) =
        ⟨true, P.none, P.none, P.none, none⟩ := by
      unfold contextOf popValue has
      simp only [hw]
      rw [hn kCafile (by simp), hn kCapath (by simp), hn kCadata (by simp), hn kCert (by simp)]
      simp [kUse, kCafile, kCapath, kCadata, kCert]
    rw [handle_eq, if_pos ha, hcx, hc]
    exact ⟨_, rfl, dget_dset_self _ _ _⟩
  · simp only [if_neg hp]
    have hp' : ['w', 's', 's'].isPrefixOf uri = false := by
      cases hq : ['w', 's', 's'].isPrefixOf uri with
      | false => rfl
      | true => exact absurd (List.isPrefixOf_iff_prefix.mp hq) hp
    have ha : ¬ asks (kw ++ [(kUse, Val.py (P.ofBool (['w', 's', 's'].isPrefixOf uri)))]) := by
      rintro (⟨v, hv, ht⟩ | ⟨c, hv⟩ | ⟨k, hk, v, hv⟩)
      · rw [e1, hw, if_pos rfl, hp'] at hv
        injection hv with hv
        injection hv with hv
        rw [← hv, hb] at ht
        cases ht
      · rw [e1, hw, if_pos rfl] at hv
        injection hv with hv
        cases hv
      · rw [e2, e3, e4, e5] at hk
        rw [hw, hn k hk] at hv
        split at hv
        · rename_i e
          rw [e] at hk
          revert hk
          decide
        · cases hv
    rw [C118_plain works true _ ha]
    refine ⟨_, rfl, ?_⟩
    rw [List.filter_append, e1]
    have : kw.filter (fun e => decide (e.1 ≠ kUse)) = kw := by
      rw [List.filter_eq_self]
      intro e he
      rw [dget_none_iff, List.any_eq_false] at hu
      simpa using hu e he
    rw [this]
    simp

/-- C118: the `server` command gives its loopback client a `wss` address exactly if the server it configures uses
TLS (the command passes no `use_ssl`). -/
theorem C118_loopback (kw : Kwargs P) (hu : dget kw "use_ssl".toList = none) :
    ("wss".toList <+: loopScheme kw ↔ asks kw) ∧ ("ws://".toList <+: loopScheme kw ↔ ¬ asks kw) := by
  obtain ⟨e1, e2, e3, e4, e5, e6, e7⟩ := names
  have e8 : "wss".toList = ['w', 's', 's'] := by decide +kernel
  have e9 : "ws://".toList = ['w', 's', ':', '/', '/'] := by decide +kernel
  rw [e8, e9]
  have ha : asks kw ↔ isSsl kw = true := by
    unfold asks isSsl
    rw [e1] at hu ⊢
    rw [hu, e2, e3, e4, e5, List.any_eq_true]
    simp only [has_iff]
    constructor
    · rintro (⟨v, hv, -⟩ | ⟨c, hv⟩ | h)
      · cases hv
      · cases hv
      · exact h
    · intro h; exact .inr (.inr h)
  rw [ha]
  unfold loopScheme
  cases isSsl kw
  · constructor
    · simp
    · simp
  · constructor
    · simp
    · simp

theorem dget_getKwargs (opts : Str → P.V) (isNone : P.V → Bool) (kw : Kwargs P) (x : Str) :
    dget (getKwargs opts isNone kw) x =
      if x ∈ [kCafile, kCapath, kCadata, kCert, kKey] ∧ isNone (opts x) = false then some (.py (opts x)) else dget kw x := by
  have key : ∀ (l : List Str) (kw : Kwargs P),
      dget (l.foldl (fun kw o => if isNone (opts o) then kw else dset kw o (.py (opts o))) kw) x =
        if x ∈ l ∧ isNone (opts x) = false then some (.py (opts x)) else dget kw x := by
    intro l
    induction l with
    | nil => intro kw; simp
    | cons o l ih =>
      intro kw
      rw [List.foldl_cons, ih]
      by_cases hx : x = o
      · subst hx
        cases hn : isNone (opts x)
        · simp [dget_dset_self]
        · simp
      · have hd : dget (if isNone (opts o) = true then kw else dset kw o (.py (opts o))) x = dget kw x := by
          split
          · rfl
          · exact dget_dset_ne _ _ _ _ (fun e => hx e.symm)
        rw [hd]
        simp [hx]
  exact key _ kw

/-- C118: the command line's five options reach the server exactly if they are given, everything else stays as it
was; so the server uses TLS exactly if one of the four that ask for it is given. -/
theorem C118_options (opts : Str → P.V) (isNone : P.V → Bool) (host port : P.V) :
    let kw := getKwargs opts isNone [(kHost, .py host), (kPort, .py port)]
    (∀ x ∈ ["cafile".toList, "capath".toList, "cadata".toList, "certfile".toList, "keyfile".toList],
      dget kw x = if isNone (opts x) then none else some (.py (opts x))) ∧
    dget kw "host".toList = some (.py host) ∧ dget kw "port".toList = some (.py port) ∧
    (asks kw ↔ ∃ x ∈ ["cafile".toList, "capath".toList, "cadata".toList, "certfile".toList], isNone (opts x) = false) := by
  intro kw
  obtain ⟨e1, e2, e3, e4, e5, e6, e7⟩ := names
  have e8 : "host".toList = kHost := by decide +kernel
  have e9 : "port".toList = kPort := by decide +kernel
  have h1 : ∀ x ∈ ["cafile".toList, "capath".toList, "cadata".toList, "certfile".toList, "keyfile".toList],
      dget kw x = if isNone (opts x) then none else some (.py (opts x)) := by
    rw [e2, e3, e4, e5, e6]
    intro x hx
    show dget (getKwargs _ _ _) x = _
    rw [dget_getKwargs]
    cases hn : isNone (opts x)
    · simp [hx]
    · have : dget ([(kHost, Val.py host), (kPort, Val.py port)] : Kwargs P) x = none := by
        rw [dget_cons, dget_cons, dget_nil]
        rw [if_neg, if_neg]
        · intro h; rw [← h] at hx; change kPort ∈ _ at hx; revert hx; decide
        · intro h; rw [← h] at hx; change kHost ∈ _ at hx; revert hx; decide
      simp [this]
  refine ⟨h1, ?_, ?_, ?_⟩
  · rw [e8]
    show dget (getKwargs _ _ _) _ = _
    rw [dget_getKwargs, if_neg]
    · rw [dget_cons, if_pos rfl]
    · rintro ⟨h, -⟩; revert h; decide
  · rw [e9]
    show dget (getKwargs _ _ _) _ = _
    rw [dget_getKwargs, if_neg]
    · rw [dget_cons, if_neg (show ¬ kHost = kPort by decide), dget_cons, if_pos rfl]
    · rintro ⟨h, -⟩; revert h; decide
  · have hu : dget kw "use_ssl".toList = none := by
      rw [e1]
      show dget (getKwargs _ _ _) _ = _
      rw [dget_getKwargs, if_neg]
      · rw [dget_cons, if_neg (show ¬ kHost = kUse by decide), dget_cons, if_neg (show ¬ kPort = kUse by decide), dget_nil]
      · rintro ⟨h, -⟩; revert h; decide
    constructor
    · rintro (⟨v, hv, -⟩ | ⟨c, hv⟩ | ⟨k, hk, v, hv⟩)
      · rw [hu] at hv; cases hv
      · rw [hu] at hv; cases hv
      · refine ⟨k, hk, ?_⟩
        rw [h1 k (List.mem_append_left ["keyfile".toList] hk)] at hv
        cases hn : isNone (opts k)
        · rfl
        · rw [hn] at hv; cases hv
    · rintro ⟨k, hk, hn⟩
      refine .inr (.inr ⟨k, hk, .py (opts k), ?_⟩)
      rw [h1 k (List.mem_append_left ["keyfile".toList] hk), hn]
      rfl

/-- C118: the loopback client of a TCP server never uses TLS, whatever the server does. -/
theorem C118_loop_tcp_fails (works : Ctx P → Option PyErr) (udp : Bool) (host port remote : P.V) :
    handle works true (loopKwargs false udp host port remote) = .ok (loopKwargs false udp host port remote) ∧
    dget (loopKwargs false udp host port remote) "ssl".toList = none := by
  have hn : ¬ asks (loopKwargs false udp host port remote) := by
    obtain ⟨e1, e2, e3, e4, e5, e6, e7⟩ := names
    unfold asks
    rw [e1, e2, e3, e4, e5]
    have h : ∀ k ∈ [kUse, kCafile, kCapath, kCadata, kCert], dget (loopKwargs false udp host port remote) k = none := by
      intro k hk
      unfold loopKwargs
      have a : kHost ≠ k := by rintro rfl; revert hk; decide
      have b : kPort ≠ k := by rintro rfl; revert hk; decide
      have c : kRemote ≠ k := by rintro rfl; revert hk; decide
      cases udp
      · simp [dget_cons, dget_nil, a, b]
      · simp [dget_cons, dget_nil, c]
    rintro (⟨v, hv, -⟩ | ⟨c, hv⟩ | ⟨k, hk, v, hv⟩)
    · rw [h kUse (by simp)] at hv; cases hv
    · rw [h kUse (by simp)] at hv; cases hv
    · rw [h k (List.mem_cons_of_mem _ hk)] at hv; cases hv
  refine ⟨?_, ?_⟩
  · rw [C118_plain works true _ hn, names.1]
    cases udp <;> rfl
  · rw [names.2.2.2.2.2.2]
    cases udp <;> rfl

/-- C118: `keyfile` without `certfile` is handed on to the socket, which knows no such argument. -/
theorem C118_keyfile_fails (works : Ctx P → Option PyErr) (client : Bool) (kw out : Kwargs P) (v : Val P)
    (hk : dget kw "keyfile".toList = some v) (hc : dget kw "certfile".toList = none)
    (h : handle works client kw = .ok out) : dget out "keyfile".toList = some v := by
  classical
  by_cases ha : asks kw
  · rw [C118_rest works client kw out h ha _ (by decide +kernel), if_neg, hk]
    rw [hc]
    rintro (hm | ⟨-, hm⟩)
    · revert hm; decide +kernel
    · cases hm
  · have h2 : handle works client kw = .ok (dpop kw kUse) := by rw [handle_eq, if_neg ha]
    rw [h2] at h
    injection h with h
    rw [← h, dget_dpop, if_neg, hk]
    decide +kernel

/-- C118: a false `use_ssl` does not switch TLS off if an authority or a certificate is named, even one that is
`None`. -/
theorem C118_off_fails (works : Ctx P → Option PyErr) (client : Bool) (kw out : Kwargs P) (v : Val P) (k : Str)
    (hm : k ∈ ["cafile".toList, "capath".toList, "cadata".toList, "certfile".toList]) (hk : dget kw k = some v)
    (h : handle works client kw = .ok out) : ∃ c : Ctx P, dget out "ssl".toList = some (.ctx c) := by
  have ha : asks kw := .inr (.inr ⟨k, hm, v, hk⟩)
  obtain ⟨c, -, -, -, -, -, h1, h2⟩ := C118_context works client kw ha
  cases hw : works c with
  | some e => rw [h1 e hw] at h; cases h
  | none =>
    obtain ⟨out', h3, h4⟩ := h2 hw
    rw [h3] at h
    injection h with h
    exact ⟨c, h ▸ h4⟩

/-- C118: a server asked for TLS by `use_ssl` or authorities alone has a context without a certificate: no client can
complete a handshake with it, and nothing reports it. -/
theorem C118_bare_fails (works : Ctx P → Option PyErr) (hw : ∀ c, works c = none) (kw : Kwargs P) (ha : asks kw)
    (hc : dget kw "certfile".toList = none) :
    ∃ out c, handle works false kw = .ok out ∧ dget out "ssl".toList = some (.ctx c) ∧ c.client = false ∧ c.cert = none := by
  obtain ⟨c, h1, -, -, -, h2, -, h3⟩ := C118_context works false kw ha
  obtain ⟨out, h4, h5⟩ := h3 (hw c)
  refine ⟨out, c, h4, h5, h1, ?_⟩
  rw [h2, hc]
  rfl

/-! ### Cases -/

inductive ExV where
  | none | no | yes | file
  deriving DecidableEq

def exPy : Py := ⟨ExV, .none, fun v => v == .yes || v == .file, fun b => if b then .yes else .no⟩

def exKw : Kwargs exPy := [("host".toList, .py ExV.file), (kCert, .py ExV.file), (kKey, .py ExV.file), (kUse, .py ExV.no)]

/-- Keys of a result. -/
def keys (r : Except PyErr (Kwargs exPy)) : List Str :=
  match r with
  | .ok l => l.map Prod.fst
  | .error _ => []

theorem C118_cases :
    keys (handle (fun _ => none) false exKw) = ["host".toList, kSsl] ∧
    keys (handle (fun _ => none) true [("host".toList, .py ExV.file), (kUse, .py ExV.no)]) = ["host".toList] ∧
    keys (handle (fun _ => none) true [(kKey, .py ExV.file), (kUse, .py ExV.yes)]) = [kKey, kSsl] ∧
    keys (handle (fun _ => none) true [(kCafile, .py ExV.none), (kUse, .py ExV.no)]) = [kSsl] ∧
    keys (wsClient (fun _ => none) "wss://h".toList []) = [kSsl] ∧
    keys (wsClient (fun _ => none) "ws://h".toList []) = [] ∧
    keys (wsClient (fun _ => none) "WSS://h".toList []) = [] ∧
    loopScheme exKw = "wss://".toList := by
  decide +kernel

end Verif.Tls
