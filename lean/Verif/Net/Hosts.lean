import Verif.Base
import Verif.Dict
/-!
C114: hosts, their names and the size of datagrams between them: `net/util.py` 18–172, `net/mtu.py`,
`net/mixin.py` 52–91, and the dictionary of endpoints of `net/udp/tftp/base.py` 131 and 164–185, whose keys are hosts.

Arguments have the types of the annotations: a name is text, the other parts are integers. What the name service and
the sockets answer is arbitrary and may change between any two questions. `hs` is the hash of a text, any function:
different texts may have the same hash. A dictionary of Python finds a key by equal hash and equality. A socket that
is not closed by the code is counted as open, although the collector may close it later.
-/
namespace Verif.Hosts

/-! ### Hosts -/

inductive Fam where
  | inet
  | inet6
  deriving DecidableEq

/-- `IPv4Host` and `IPv6Host`, net/util.py 18–23 and 66–73: named tuples, compared as tuples. -/
inductive Host where
  | v4 (name : String) (port : Int)
  | v6 (name : String) (port flow scope : Int)
  deriving DecidableEq

/-- The host as a tuple. -/
def Host.tuple : Host → List (String ⊕ Int)
  | .v4 n p => [.inl n, .inr p]
  | .v6 n p f s => [.inl n, .inr p, .inr f, .inr s]

/-- `family`, 25–28 and 94–97. -/
def Host.fam : Host → Fam
  | .v4 .. => .inet
  | .v6 .. => .inet6

def Host.name : Host → String
  | .v4 n _ => n
  | .v6 n _ _ _ => n

def Host.port : Host → Int
  | .v4 _ p => p
  | .v6 _ p _ _ => p

/-- `zero_port`, 30–33 and 85–92. -/
def Host.zeroPort : Host → Host
  | .v4 n p => if p = 0 then .v4 n p else .v4 n 0
  | .v6 n p f s => if p = 0 then .v6 n p f s else .v6 n 0 f s

/-- `IPv4Host()` and `IPv6Host()`. -/
def Host.empty : Fam → Host
  | .inet => .v4 "" 0
  | .inet6 => .v6 "" 0 0 0

/-- The arguments of `normalize_host`: none at all, `None` first, a host first, a name first. -/
inductive Args where
  | nothing
  | null (rest : List Int)
  | host (h : Host) (rest : List Int)
  | name (n : String) (rest : List Int)

/-- `normalize_host`, net/util.py 121–134. -/
def normalize (default : Fam) : Args → Except PyErr Host
  | .nothing => .ok (Host.empty default)
  | .null _ => .ok (Host.empty default)
  | .host h _ => .ok h
  | .name n [] => .ok (.v4 n 0)
  | .name n [p] => .ok (.v4 n p)
  | .name n [p, f] => .ok (.v6 n p f 0)
  | .name n [p, f, s] => .ok (.v6 n p f s)
  | .name _ _ => .error .type

/-- `*host`. -/
def Host.args : Host → Args
  | .v4 n p => .name n [p]
  | .v6 n p f s => .name n [p, f, s]

/-! ### Names -/

/-- What the name service answers at one moment: `gethostbyaddr` (`none`: an error) and `getfqdn`. -/
structure Net where
  byAddr : String → Option String
  fqdn : String

/-- The caches of `hostname` and `hostname_port`, net/util.py 140 and 168. -/
structure Names where
  hosts : List (String × String)
  texts : List ((String × Int) × String)

/-- `hostname`, net/util.py 137–155. -/
def Names.hostname (c : Names) (w : Net) (n : String) : Names × String :=
  match dget c.hosts n with
  | some s => (c, s)
  | none =>
    let s := if n = "::" ∨ n = "0.0.0.0" then w.fqdn else (w.byAddr n).getD n
    ({ c with hosts := dset c.hosts n s }, s)

/-- `hostname_port`, net/util.py 168–171, which is `str` of a host, 55–57 and 109–111. -/
def Names.text (c : Names) (w : Net) (n : String) (p : Int) : Names × String :=
  match dget c.texts (n, p) with
  | some s => (c, s)
  | none =>
    let r := c.hostname w n
    let s := r.2 ++ ":" ++ toString p
    ({ r.1 with texts := dset r.1.texts (n, p) s }, s)

/-! ### Hosts as keys -/

/-- An entry of a dictionary whose keys are hosts: the hash when it was set, the key, the value. -/
structure Slot where
  hash : Int
  key : Host
  val : Nat

/-- A look-up in such a dictionary. -/
def find (d : List Slot) (hash : Int) (k : Host) : Option Nat :=
  (d.find? (fun s => s.hash = hash ∧ s.key = k)).map Slot.val

/-- A look-up with a plain tuple. -/
def findTuple (d : List Slot) (hash : Int) (k : List (String ⊕ Int)) : Option Nat :=
  (d.find? (fun s => s.hash = hash ∧ s.key.tuple = k)).map Slot.val

/-- Setting an entry: an equal key keeps its place. -/
def put (d : List Slot) (hash : Int) (k : Host) (v : Nat) : List Slot :=
  if (find d hash k).isSome then d.map (fun s => if s.hash = hash ∧ s.key = k then { s with val := v } else s)
  else d ++ [⟨hash, k, v⟩]

/-- The names and the endpoints of a connection; `next` numbers the endpoint objects made. -/
structure St where
  names : Names
  eps : List Slot
  next : Nat

def St.init : St := ⟨⟨[], []⟩, [], 0⟩

/-- `__hash__`, net/util.py 59–61 and 113–115. -/
def St.hash (hs : String → Int) (s : St) (w : Net) (h : Host) : St × Int :=
  let r := s.names.text w h.name h.port
  ({ s with names := r.1 }, hs r.2)

/-- `endpoint`, base.py 164–185, of a given address: the hash is computed for the test, for setting the entry and
for the look-up, `w1`, `w2` and `w3` are the name service then. -/
def St.endpoint (hs : String → Int) (s : St) (w1 w2 w3 : Net) (h : Host) : St × Except PyErr Nat :=
  let (s, k1) := s.hash hs w1 h
  let s :=
    if (find s.eps k1 h).isNone then
      let (s, k2) := s.hash hs w2 h
      { s with eps := put s.eps k2 h s.next, next := s.next + 1 }
    else s
  let (s, k3) := s.hash hs w3 h
  match find s.eps k3 h with
  | some e => (s, .ok e)
  | none => (s, .error .key)

inductive Op where
  | hostname (w : Net) (n : String)
  | text (w : Net) (h : Host)
  | endpoint (w1 w2 w3 : Net) (h : Host)

/-- What a step gave. -/
inductive Out where
  | hostname (n s : String)
  | text (h : Host) (s : String)
  | endpoint (h : Host) (r : Except PyErr Nat)

def St.step (hs : String → Int) (s : St) : Op → St × Out
  | .hostname w n => ({ s with names := (s.names.hostname w n).1 }, .hostname n (s.names.hostname w n).2)
  | .text w h => ({ s with names := (s.names.text w h.name h.port).1 }, .text h (s.names.text w h.name h.port).2)
  | .endpoint w1 w2 w3 h => ((s.endpoint hs w1 w2 w3 h).1, .endpoint h (s.endpoint hs w1 w2 w3 h).2)

def St.run (hs : String → Int) (s : St) : List Op → St × List Out
  | [] => (s, [])
  | o :: os => (((s.step hs o).1.run hs os).1, (s.step hs o).2 :: ((s.step hs o).1.run hs os).2)

/-! ### The size of datagrams -/

/-- What the sockets do during one discovery: the address of `local`, `bind`, `connect`, the two options, the probe,
restoring, `IP_MTU`. `none` is no error. -/
structure World where
  resolve : Option PyErr
  bind : Option PyErr
  connect : Option PyErr
  getOk : Bool
  setOk : Bool
  probe : Option (Option PyErr)
  restoreOk : Bool
  mtu : Option Nat

/-- The probe: `none` went out, `some none` an `OSError`, `some (some e)` any other error. -/
def World.probeRaises (w : World) : Option PyErr := w.probe.getD none

/-- `socket_discover_mtu`, net/mtu.py 39–91: the option of the socket before, while probing and after, and the
answer. -/
def probe (w : World) (opt fallback : Int) : Int × Int × Except PyErr Int :=
  let orig := if w.getOk then some opt else none
  let during := if w.setOk then 2 else opt
  match w.probeRaises with
  | some e => (during, during, .error e)
  | none =>
    let after := match orig with
      | some o => if w.restoreOk then o else during
      | none => during
    let result := w.mtu.getD 0
    (during, after, .ok (if result = 0 then fallback else result))

/-- The arguments of `host_discover_mtu`, the key of its cache, net/mtu.py 94–102; `create` names the function. -/
structure Key where
  src : Host
  dst : Host
  size : Int
  fallback : Int
  kind : Int
  create : Nat
  deriving DecidableEq

/-- The cache, the sockets made and closed, and for each probe the address bound, the peer and the size. -/
structure Mtu where
  cache : List (Key × Int)
  opened : Nat
  closed : Nat
  probes : List (Host × Host × Int)

def Mtu.init : Mtu := ⟨[], 0, 0, []⟩

/-- `host_discover_mtu`, net/mtu.py 94–111, with `get_free_socket`, net/util.py 179–193. `opt` is the option of a new
socket. -/
def Mtu.call (opt : Int) (m : Mtu) (w : World) (k : Key) : Mtu × Except PyErr Int :=
  match dget m.cache k with
  | some v => (m, .ok v)
  | none =>
    match w.resolve with
    | some e => (m, .error e)
    | none =>
      let m := { m with opened := m.opened + 1 }
      match w.bind with
      | some e => (m, .error e)
      | none =>
        match w.connect with
        | some e => (m, .error e)
        | none =>
          let m := { m with probes := m.probes ++ [(k.src.zeroPort, k.dst, k.size)] }
          match (probe w opt k.fallback).2.2 with
          | .error e => (m, .error e)
          | .ok v => ({ m with closed := m.closed + 1, cache := dset m.cache k v }, .ok v)

/-- `discover_mtu`, net/mtu.py 114–143: the key it asks for. -/
def discoverKey (dst : Args) (src : Option Host) (size fallback kind : Int) (create : Nat) : Except PyErr Key :=
  match normalize .inet dst with
  | .error e => .error e
  | .ok d =>
    match normalize d.fam (match src with | some h => .host h [] | none => .null []) with
    | .error e => .error e
    | .ok s => .ok ⟨s, d, size, fallback, kind, create⟩

def Mtu.run (opt : Int) (m : Mtu) : List (World × Key) → Mtu × List (Key × Except PyErr Int)
  | [] => (m, [])
  | (w, k) :: cs =>
    (((m.call opt w k).1.run opt cs).1, (k, (m.call opt w k).2) :: ((m.call opt w k).1.run opt cs).2)

/-! ### Hosts: theorems -/

/-- A host taken apart and put together again is the same host, and an address of two or four parts keeps its parts;
a host passes unchanged. -/
theorem C114_normalize (d : Fam) :
    (∀ h : Host, normalize d h.args = .ok h) ∧ (∀ (h : Host) rest, normalize d (.host h rest) = .ok h) ∧
    (∀ n p, (normalize d (.name n [p])).map Host.tuple = .ok [.inl n, .inr p]) ∧
    (∀ n p f s, (normalize d (.name n [p, f, s])).map Host.tuple = .ok [.inl n, .inr p, .inr f, .inr s]) ∧
    (∀ n, normalize d (.name n []) = normalize d (.name n [0])) ∧
    (∀ n p f, normalize d (.name n [p, f]) = normalize d (.name n [p, f, 0])) ∧
    (∀ n (rest : List Int), 4 ≤ rest.length → normalize d (.name n rest) = .error .type) ∧
    (∀ h : Host, normalize d .nothing = .ok h ↔ h.fam = d ∧ h.name = "" ∧ ∀ x ∈ h.tuple.tail, x = .inr 0) := by
  refine ⟨fun h => by cases h <;> rfl, fun _ _ => rfl, fun _ _ => rfl, fun _ _ _ _ => rfl, fun _ => rfl,
    fun _ _ _ => rfl, fun n rest h => ?_, fun h => ?_⟩
  · match rest, h with
    | _ :: _ :: _ :: _ :: _, _ => rfl
  · cases d <;> cases h <;> simp [normalize, Host.empty, Host.fam, Host.name, Host.tuple, eq_comm]

/-- Hosts are equal exactly if their tuples are. -/
theorem C114_equal (h k : Host) : h = k ↔ h.tuple = k.tuple := by
  cases h <;> cases k <;> simp [Host.tuple]

/-- The port given with `None` is dropped. -/
theorem C114_port_fails (d : Fam) (p : Int) (hp : p ≠ 0) (rest : List Int) :
    ∃ h, normalize d (.null (p :: rest)) = .ok h ∧ h.port ≠ p := by
  refine ⟨Host.empty d, rfl, ?_⟩
  cases d <;> simpa [Host.empty, Host.port] using fun h => hp h.symm

/-- A name and a port make an IPv4 host, also if the name is an IPv6 address and the default is the other family. -/
theorem C114_family_fails (n : String) (p : Int) :
    ∃ h, normalize .inet6 (.name n [p]) = .ok h ∧ h.fam = .inet := ⟨_, rfl, rfl⟩

/-- Without its port a host keeps everything else. -/
theorem C114_zero (h : Host) :
    h.zeroPort.port = 0 ∧ h.zeroPort.fam = h.fam ∧ h.zeroPort.name = h.name ∧
    h.zeroPort.tuple.drop 2 = h.tuple.drop 2 ∧ (h.port = 0 → h.zeroPort = h) := by
  cases h <;> simp only [Host.zeroPort, Host.port] <;> split <;>
    simp_all [Host.fam, Host.name, Host.tuple]

/-! ### Names: theorems -/

/-- What the name service says about a name at one moment. -/
def Net.says (w : Net) (n s : String) : Prop :=
  ((n = "::" ∨ n = "0.0.0.0") ∧ s = w.fqdn) ∨
  (n ≠ "::" ∧ n ≠ "0.0.0.0" ∧ (w.byAddr n = some s ∨ w.byAddr n = none ∧ s = n))

/-- The moments of a history. -/
def Op.nets : Op → List Net
  | .hostname w _ => [w]
  | .text w _ => [w]
  | .endpoint w1 w2 w3 _ => [w1, w2, w3]

/-- The texts are those of the cached names. -/
def Names.Ok (c : Names) : Prop :=
  ∀ n p t, dget c.texts (n, p) = some t → ∃ s, dget c.hosts n = some s ∧ t = s ++ ":" ++ toString p

/-- Later caches know what earlier ones knew. -/
def Names.Le (c d : Names) : Prop :=
  (∀ n s, dget c.hosts n = some s → dget d.hosts n = some s) ∧
  (∀ k s, dget c.texts k = some s → dget d.texts k = some s)

theorem Names.Le.refl (c : Names) : c.Le c := ⟨fun _ _ h => h, fun _ _ h => h⟩
theorem Names.Le.trans {a b c : Names} (h : a.Le b) (g : b.Le c) : a.Le c :=
  ⟨fun _ _ x => g.1 _ _ (h.1 _ _ x), fun _ _ x => g.2 _ _ (h.2 _ _ x)⟩

theorem hostname_spec (c : Names) (w : Net) (n : String) (ok : c.Ok) :
    (c.hostname w n).1.Ok ∧ c.Le (c.hostname w n).1 ∧
    dget (c.hostname w n).1.hosts n = some (c.hostname w n).2 ∧ (c.hostname w n).1.texts = c.texts ∧
    (dget c.hosts n = none → w.says n (c.hostname w n).2) ∧
    (∀ m s, dget (c.hostname w n).1.hosts m = some s → dget c.hosts m = some s ∨ w.says m s) := by
  unfold Names.hostname
  cases e : dget c.hosts n with
  | some s => exact ⟨ok, .refl c, e, rfl, by simp, fun _ _ h => .inl h⟩
  | none =>
    have hs : w.says n (if n = "::" ∨ n = "0.0.0.0" then w.fqdn else (w.byAddr n).getD n) := by
      unfold Net.says
      split
      · next h => exact .inl ⟨h, rfl⟩
      · next h =>
        refine .inr ⟨fun x => h (.inl x), fun x => h (.inr x), ?_⟩
        cases w.byAddr n <;> simp
    refine ⟨fun m p t h => ?_, ⟨fun m s h => ?_, fun _ _ h => h⟩, dget_dset_self _ _ _, rfl, fun _ => hs,
      fun m s h => ?_⟩
    · obtain ⟨s, hs, ht⟩ := ok m p t h
      refine ⟨s, ?_, ht⟩
      have : n ≠ m := fun x => by rw [← x, e] at hs; cases hs
      simpa [dget_dset_ne _ _ _ _ this] using hs
    · have : n ≠ m := fun x => by rw [← x, e] at h; cases h
      simpa [dget_dset_ne _ _ _ _ this] using h
    · by_cases hm : n = m
      · subst hm
        dsimp only at h
        rw [dget_dset_self] at h
        cases h
        exact .inr hs
      · dsimp only at h
        rw [dget_dset_ne _ _ _ _ hm] at h
        exact .inl h

theorem text_spec (c : Names) (w : Net) (n : String) (p : Int) (ok : c.Ok) :
    (c.text w n p).1.Ok ∧ c.Le (c.text w n p).1 ∧ dget (c.text w n p).1.texts (n, p) = some (c.text w n p).2 ∧
    (∀ m s, dget (c.text w n p).1.hosts m = some s → dget c.hosts m = some s ∨ w.says m s) := by
  unfold Names.text
  cases e : dget c.texts (n, p) with
  | some s => exact ⟨ok, .refl c, e, fun _ _ h => .inl h⟩
  | none =>
    obtain ⟨h1, h2, h3, h4, -, h6⟩ := hostname_spec c w n ok
    refine ⟨fun m q t h => ?_, ⟨h2.1, fun k s h => ?_⟩, dget_dset_self _ _ _, h6⟩
    · dsimp only at h ⊢
      by_cases hk : (n, p) = (m, q)
      · cases hk
        rw [dget_dset_self] at h
        cases h
        exact ⟨_, h3, rfl⟩
      · rw [dget_dset_ne _ _ _ _ hk] at h
        exact h1 m q t h
    · have : (n, p) ≠ k := fun x => by rw [← x, e] at h; cases h
      dsimp only
      rw [dget_dset_ne _ _ _ _ this, h4]
      exact h

theorem text_again (c : Names) (w : Net) (n : String) (p : Int) (s : String) (h : dget c.texts (n, p) = some s) :
    c.text w n p = (c, s) := by
  unfold Names.text
  rw [h]

/-! ### Keys: theorems -/

/-- The invariant: every entry was set with the hash its key still has, keys and values occur once. -/
structure Inv (hs : String → Int) (s : St) : Prop where
  names : s.names.Ok
  hash : ∀ x ∈ s.eps, ∃ t, dget s.names.texts (x.key.name, x.key.port) = some t ∧ x.hash = hs t
  keys : ∀ x ∈ s.eps, ∀ y ∈ s.eps, x.key = y.key ↔ x.val = y.val
  below : ∀ x ∈ s.eps, x.val < s.next

theorem find_some {d : List Slot} {k : Int} {h : Host} {e : Nat} (x : find d k h = some e) :
    ∃ y ∈ d, y.hash = k ∧ y.key = h ∧ y.val = e := by
  unfold find at x
  cases f : d.find? (fun s => s.hash = k ∧ s.key = h) with
  | none => rw [f] at x; cases x
  | some y =>
    rw [f] at x
    have p := List.find?_some f
    simp at p x
    exact ⟨y, List.mem_of_find?_eq_some f, p.1, p.2, x⟩

theorem find_none {d : List Slot} {k : Int} {h : Host} (x : find d k h = none) :
    ∀ y ∈ d, y.hash = k → y.key ≠ h := by
  unfold find at x
  rw [Option.map_eq_none_iff, List.find?_eq_none] at x
  intro y hy a b
  exact x y hy (by simp [a, b])

theorem find_mem {d : List Slot} {y : Slot} (hy : y ∈ d) : ∃ e, find d y.hash y.key = some e := by
  cases f : find d y.hash y.key with
  | some e => exact ⟨e, rfl⟩
  | none => exact absurd rfl (find_none f y hy rfl)

/-- The values of the entries, as a relation. -/
def St.has (s : St) (h : Host) (e : Nat) : Prop := ∃ x ∈ s.eps, x.key = h ∧ x.val = e

theorem endpoint_spec (hs : String → Int) (s : St) (w1 w2 w3 : Net) (h : Host) (i : Inv hs s) :
    Inv hs (s.endpoint hs w1 w2 w3 h).1 ∧ s.names.Le (s.endpoint hs w1 w2 w3 h).1.names ∧
    (∃ e, (s.endpoint hs w1 w2 w3 h).2 = .ok e ∧ (s.endpoint hs w1 w2 w3 h).1.has h e) ∧
    (∀ k e, s.has k e → (s.endpoint hs w1 w2 w3 h).1.has k e) ∧
    (∀ m t, dget (s.endpoint hs w1 w2 w3 h).1.names.hosts m = some t →
      dget s.names.hosts m = some t ∨ w1.says m t) := by
  obtain ⟨t1, t2, t3, t4⟩ := text_spec s.names w1 h.name h.port i.names
  have again : ∀ w, (s.names.text w1 h.name h.port).1.text w h.name h.port =
      ((s.names.text w1 h.name h.port).1, (s.names.text w1 h.name h.port).2) := fun w => text_again _ _ _ _ _ t3
  have hash' : ∀ x ∈ s.eps, ∃ t, dget (s.names.text w1 h.name h.port).1.texts (x.key.name, x.key.port) = some t ∧
      x.hash = hs t := fun x hx => by
    obtain ⟨t, a, b⟩ := i.hash x hx
    exact ⟨t, t2.2 _ _ a, b⟩
  generalize hr : s.names.text w1 h.name h.port = r at *
  obtain ⟨c, t⟩ := r
  dsimp only at *
  have key : ∀ x ∈ s.eps, x.key = h → x.hash = hs t := fun x hx hk => by
    obtain ⟨t', a, b⟩ := hash' x hx
    rw [hk, t3] at a
    cases a
    exact b
  unfold St.endpoint
  simp only [St.hash, hr, again]
  cases f : find s.eps (hs t) h with
  | some e =>
    simp only [Option.isNone_some, Bool.false_eq_true, if_false, again, f]
    obtain ⟨y, hy, -, y2, y3⟩ := find_some f
    exact ⟨⟨t1, hash', i.keys, i.below⟩, t2, ⟨e, rfl, y, hy, y2, y3⟩, fun _ _ x => x, t4⟩
  | none =>
    have hno : ∀ x ∈ s.eps, x.key ≠ h := fun x hx hk => find_none f x hx (key x hx hk) hk
    have hput : put s.eps (hs t) h s.next = s.eps ++ [⟨hs t, h, s.next⟩] := by
      unfold put
      rw [f]
      rfl
    simp only [Option.isNone_none, if_true, again, hput]
    have inv : Inv hs ⟨c, s.eps ++ [⟨hs t, h, s.next⟩], s.next + 1⟩ := by
      refine ⟨t1, fun x hx => ?_, fun x hx y hy => ?_, fun x hx => ?_⟩
      · rcases List.mem_append.mp hx with hx | hx
        · exact hash' x hx
        · simp at hx
          subst hx
          exact ⟨t, t3, rfl⟩
      · rcases List.mem_append.mp hx with hx | hx <;> rcases List.mem_append.mp hy with hy | hy
        · exact i.keys x hx y hy
        · simp at hy
          subst hy
          have := i.below x hx
          exact ⟨fun a => absurd a (hno x hx), fun a => by dsimp only at a; omega⟩
        · simp at hx
          subst hx
          have := i.below y hy
          exact ⟨fun a => absurd a.symm (hno y hy), fun a => by dsimp only at a; omega⟩
        · simp at hx hy
          subst hx hy
          simp
      · rcases List.mem_append.mp hx with hx | hx
        · have := i.below x hx
          dsimp only
          omega
        · simp at hx
          subst hx
          exact Nat.lt_succ_self _
    obtain ⟨e, he⟩ := find_mem (d := s.eps ++ [⟨hs t, h, s.next⟩]) (y := ⟨hs t, h, s.next⟩) (by simp)
    dsimp only at he
    rw [he]
    obtain ⟨y, hy, -, y2, y3⟩ := find_some he
    exact ⟨inv, t2, ⟨e, rfl, y, hy, y2, y3⟩,
      fun k e ⟨x, hx, a⟩ => ⟨x, List.mem_append_left _ hx, a⟩, t4⟩

/-- What a step gave is what the state knows. -/
def St.knows (s : St) : Out → Prop
  | .hostname n t => dget s.names.hosts n = some t
  | .text h t => dget s.names.texts (h.name, h.port) = some t
  | .endpoint h r => ∃ e, r = .ok e ∧ s.has h e

/-- Later states know what earlier ones knew. -/
def St.Le (s r : St) : Prop := s.names.Le r.names ∧ ∀ k e, s.has k e → r.has k e

theorem St.Le.knows {s r : St} (h : s.Le r) (o : Out) (k : s.knows o) : r.knows o := by
  cases o with
  | hostname n t => exact h.1.1 _ _ k
  | text a t => exact h.1.2 _ _ k
  | endpoint a x => obtain ⟨e, k1, k2⟩ := k; exact ⟨e, k1, h.2 _ _ k2⟩

theorem step_spec (hs : String → Int) (s : St) (o : Op) (i : Inv hs s) :
    Inv hs (s.step hs o).1 ∧ s.Le (s.step hs o).1 ∧ (s.step hs o).1.knows (s.step hs o).2 ∧
    (∀ m t, dget (s.step hs o).1.names.hosts m = some t → dget s.names.hosts m = some t ∨ ∃ w ∈ o.nets, w.says m t) := by
  cases o with
  | hostname w n =>
    obtain ⟨h1, h2, h3, h4, -, h6⟩ := hostname_spec s.names w n i.names
    refine ⟨⟨h1, fun x hx => ?_, i.keys, i.below⟩, ⟨h2, fun _ _ x => x⟩, h3, fun m t h => ?_⟩
    · obtain ⟨t, a, b⟩ := i.hash x hx
      exact ⟨t, h2.2 _ _ a, b⟩
    · rcases h6 m t h with h | h
      · exact .inl h
      · exact .inr ⟨w, by simp [Op.nets], h⟩
  | text w a =>
    obtain ⟨h1, h2, h3, h6⟩ := text_spec s.names w a.name a.port i.names
    refine ⟨⟨h1, fun x hx => ?_, i.keys, i.below⟩, ⟨h2, fun _ _ x => x⟩, h3, fun m t h => ?_⟩
    · obtain ⟨t, a, b⟩ := i.hash x hx
      exact ⟨t, h2.2 _ _ a, b⟩
    · rcases h6 m t h with h | h
      · exact .inl h
      · exact .inr ⟨w, by simp [Op.nets], h⟩
  | endpoint w1 w2 w3 h =>
    obtain ⟨h1, h2, h3, h4, h5⟩ := endpoint_spec hs s w1 w2 w3 h i
    refine ⟨h1, ⟨h2, h4⟩, h3, fun m t x => ?_⟩
    rcases h5 m t x with x | x
    · exact .inl x
    · exact .inr ⟨w1, by simp [Op.nets], x⟩

theorem run_spec (hs : String → Int) (os : List Op) (s : St) (i : Inv hs s) :
    Inv hs (s.run hs os).1 ∧ s.Le (s.run hs os).1 ∧ (∀ x ∈ (s.run hs os).2, (s.run hs os).1.knows x) ∧
    (∀ m t, dget (s.run hs os).1.names.hosts m = some t →
      dget s.names.hosts m = some t ∨ ∃ o ∈ os, ∃ w ∈ o.nets, w.says m t) := by
  induction os generalizing s with
  | nil => exact ⟨i, ⟨.refl _, fun _ _ x => x⟩, by simp [St.run], fun _ _ h => .inl h⟩
  | cons o os ih =>
    obtain ⟨h1, h2, h3, h4⟩ := step_spec hs s o i
    obtain ⟨g1, g2, g3, g4⟩ := ih _ h1
    refine ⟨g1, ⟨h2.1.trans g2.1, fun k e x => g2.2 _ _ (h2.2 _ _ x)⟩, fun x hx => ?_, fun m t h => ?_⟩
    · simp only [St.run, List.mem_cons] at hx
      rcases hx with hx | hx
      · rw [hx]
        exact g2.knows _ h3
      · exact g3 x hx
    · rcases g4 m t h with h | ⟨o', ho, w, hw, h⟩
      · rcases h4 m t h with h | ⟨w, hw, h⟩
        · exact .inl h
        · exact .inr ⟨o, by simp, w, hw, h⟩
      · exact .inr ⟨o', by simp [ho], w, hw, h⟩

theorem inv_init (hs : String → Int) : Inv hs .init :=
  ⟨fun _ _ _ h => by simp [St.init, dget_nil] at h, by simp [St.init], by simp [St.init], by simp [St.init]⟩

/-- Over every history there is one name for each address, whatever the name service answers later: every name
and every text given are made of it, and it is what the service said at some moment. -/
theorem C114_names (hs : String → Int) (os : List Op) : ∃ hn : String → String,
    ∀ x ∈ (St.init.run hs os).2,
      match x with
      | .hostname n t => t = hn n ∧ ∃ o ∈ os, ∃ w ∈ o.nets, w.says n (hn n)
      | .text h t => t = hn h.name ++ ":" ++ toString h.port ∧ ∃ o ∈ os, ∃ w ∈ o.nets, w.says h.name (hn h.name)
      | .endpoint _ _ => True := by
  obtain ⟨g1, -, g3, g4⟩ := run_spec hs os .init (inv_init hs)
  refine ⟨fun n => (dget (St.init.run hs os).1.names.hosts n).getD "", fun x hx => ?_⟩
  have k := g3 x hx
  have back : ∀ m t, dget (St.init.run hs os).1.names.hosts m = some t → ∃ o ∈ os, ∃ w ∈ o.nets, w.says m t := by
    intro m t h
    rcases g4 m t h with h | h
    · simp [St.init, dget_nil] at h
    · exact h
  cases x with
  | hostname n t =>
    simp only [St.knows] at k
    simp only [k, Option.getD_some, true_and]
    exact back _ _ k
  | text h t =>
    obtain ⟨s, a, b⟩ := g1.names _ _ _ k
    simp only [a, Option.getD_some]
    exact ⟨b, back _ _ a⟩
  | endpoint h r => trivial

/-- Over every history each address has exactly one endpoint object of its own, found at every call, even if the name
service changes its answers and hashes collide. -/
theorem C114_endpoints (hs : String → Int) (os : List Op) (h k : Host) (r q : Except PyErr Nat)
    (x : Out.endpoint h r ∈ (St.init.run hs os).2) (y : Out.endpoint k q ∈ (St.init.run hs os).2) :
    (∃ e, r = .ok e) ∧ (r = q ↔ h = k) := by
  obtain ⟨g1, -, g3, -⟩ := run_spec hs os .init (inv_init hs)
  obtain ⟨e, rfl, a, ha, a1, a2⟩ := g3 _ x
  obtain ⟨f, rfl, b, hb, b1, b2⟩ := g3 _ y
  refine ⟨⟨e, rfl⟩, ?_⟩
  have := g1.keys a ha b hb
  rw [a1, b1, a2, b2] at this
  rw [this]
  exact ⟨fun h => by cases h; rfl, fun h => by rw [h]⟩

/-- A plain tuple equal to a host that has an endpoint finds it only if the hash of the tuple happens to be that of
the text of the host. -/
theorem C114_tuple_fails (hs : String → Int) (os : List Op) (h : Host) (r : Except PyErr Nat) (ht : Int)
    (x : Out.endpoint h r ∈ (St.init.run hs os).2) :
    ∃ t, dget (St.init.run hs os).1.names.texts (h.name, h.port) = some t ∧
      ((findTuple (St.init.run hs os).1.eps ht h.tuple).isSome ↔ ht = hs t) := by
  obtain ⟨g1, -, g3, -⟩ := run_spec hs os .init (inv_init hs)
  obtain ⟨e, rfl, a, ha, a1, a2⟩ := g3 _ x
  obtain ⟨t, t1, t2⟩ := g1.hash a ha
  rw [a1] at t1
  refine ⟨t, t1, ?_⟩
  unfold findTuple
  rw [Option.isSome_map, List.find?_isSome]
  constructor
  · rintro ⟨y, hy, p⟩
    simp only [Bool.decide_and, Bool.and_eq_true, decide_eq_true_eq] at p
    obtain ⟨t', u1, u2⟩ := g1.hash y hy
    rw [(C114_equal _ _).mpr p.2, t1] at u1
    cases u1
    rw [← p.1, u2]
  · intro p
    exact ⟨a, ha, by simp [t2, p, a1]⟩

/-! ### Sizes: theorems -/

/-- The answer is the size the system reports, else the fallback; while probing the option is that which forbids
fragments, and afterwards the socket is as before, if it lets its option be read and set. -/
theorem C114_probe (w : World) (opt fallback : Int) (hp : w.probe = none ∨ w.probe = some none) :
    (∀ m : Nat, w.mtu = some m → m ≠ 0 → (probe w opt fallback).2.2 = .ok m) ∧
    (w.mtu = none ∨ w.mtu = some 0 → (probe w opt fallback).2.2 = .ok fallback) ∧
    (w.setOk = true → (probe w opt fallback).1 = 2) ∧
    (w.getOk = true → w.restoreOk = true → (probe w opt fallback).2.1 = opt) ∧
    (w.setOk = false → (probe w opt fallback).2.1 = opt) := by
  have e : w.probeRaises = none := by rcases hp with h | h <;> simp [World.probeRaises, h]
  simp only [probe, e]
  refine ⟨fun m h1 h2 => by simp [h1, h2], ?_, fun h => by simp [h], fun h g => by simp [h, g], fun h => ?_⟩
  · rintro (h | h) <;> simp [h]
  · simp only [h]
    cases w.getOk <;> cases w.restoreOk <;> simp

/-- A socket whose option could not be read, or whose probe raised something else than an `OSError`, is left with the
option that forbids fragments. -/
theorem C114_option_fails (w : World) (opt fallback : Int) (hs : w.setOk = true)
    (h : w.getOk = false ∨ ∃ e, w.probe = some (some e)) : (probe w opt fallback).2.1 = 2 := by
  rcases h with h | ⟨e, h⟩
  · unfold probe
    simp only [hs, h, if_true]
    split <;> rfl
  · simp [probe, World.probeRaises, h, hs]

/-- What the world lets a call of its own do: an answer, or the error and whether a socket was made. -/
def World.answer (w : World) (fallback : Int) : Except (PyErr × Bool) Int :=
  match w.resolve, w.bind, w.connect, w.probe with
  | some e, _, _, _ => .error (e, false)
  | none, some e, _, _ => .error (e, true)
  | none, none, some e, _ => .error (e, true)
  | none, none, none, some (some e) => .error (e, true)
  | none, none, none, _ => .ok (match w.mtu with | some (m + 1) => (m : Int) + 1 | _ => fallback)

theorem call_spec (opt : Int) (m : Mtu) (w : World) (k : Key) :
    (∀ v, dget m.cache k = some v → m.call opt w k = (m, .ok v)) ∧
    (dget m.cache k = none →
      (m.call opt w k).2 = (match w.answer k.fallback with | .ok v => .ok v | .error e => .error e.1) ∧
      (m.call opt w k).1.cache = (match w.answer k.fallback with | .ok v => dset m.cache k v | .error _ => m.cache) ∧
      (m.call opt w k).1.opened =
        (match w.answer k.fallback with | .error (_, false) => m.opened | _ => m.opened + 1) ∧
      (m.call opt w k).1.closed = (match w.answer k.fallback with | .ok _ => m.closed + 1 | .error _ => m.closed) ∧
      (m.call opt w k).1.probes = (if w.resolve = none ∧ w.bind = none ∧ w.connect = none
        then m.probes ++ [(k.src.zeroPort, k.dst, k.size)] else m.probes)) := by
  refine ⟨fun v h => by simp [Mtu.call, h], fun h => ?_⟩
  obtain ⟨res, bnd, con, go, so, pr, ro, mt⟩ := w
  simp only [Mtu.call, h]
  cases res with
  | some e => simp [World.answer]
  | none =>
    cases bnd with
    | some e => simp [World.answer]
    | none =>
      cases con with
      | some e => simp [World.answer]
      | none =>
        match pr with
        | some (some e) => simp [World.answer, probe, World.probeRaises]
        | some none => rcases mt with _ | _ | mt <;> simp [World.answer, probe, World.probeRaises] <;> omega
        | none => rcases mt with _ | _ | mt <;> simp [World.answer, probe, World.probeRaises] <;> omega

/-- The failures of a history that left a socket: the calls not answered before whose world fails after making it. -/
def leaks : List Key → List (World × Key) → Nat
  | _, [] => 0
  | done, (w, k) :: cs =>
    if k ∈ done then leaks done cs
    else match w.answer k.fallback with
      | .ok _ => leaks (k :: done) cs
      | .error (_, true) => leaks done cs + 1
      | .error (_, false) => leaks done cs

/-- What a history answers: the first answer for each key, for ever. -/
def answers : List (Key × Int) → List (World × Key) → List (Key × Except PyErr Int)
  | _, [] => []
  | done, (w, k) :: cs =>
    match done.lookup k with
    | some v => (k, .ok v) :: answers done cs
    | none => match w.answer k.fallback with
      | .ok v => (k, .ok v) :: answers ((k, v) :: done) cs
      | .error e => (k, .error e.1) :: answers done cs

theorem run_mtu (opt : Int) (cs : List (World × Key)) (m : Mtu) (done : List (Key × Int))
    (h : ∀ k, dget m.cache k = done.lookup k) :
    (m.run opt cs).2 = answers done cs ∧
    (m.run opt cs).1.opened + m.closed = (m.run opt cs).1.closed + m.opened + leaks (done.map Prod.fst) cs := by
  induction cs generalizing m done with
  | nil => simp [Mtu.run, answers, leaks]; omega
  | cons c cs ih =>
    obtain ⟨w, k⟩ := c
    obtain ⟨h1, h2⟩ := call_spec opt m w k
    simp only [Mtu.run, answers, leaks]
    have hmem : k ∈ done.map Prod.fst ↔ (done.lookup k).isSome := by
      rw [Option.isSome_iff_ne_none, ne_eq, List.lookup_eq_none_iff]
      simp only [List.mem_map, Prod.exists, exists_and_right, exists_eq_right, Prod.forall, bne_iff_ne, ne_eq]
      constructor
      · rintro ⟨v, hv⟩ hn
        exact hn k v hv rfl
      · intro hn
        exact Classical.byContradiction fun hx => hn fun a b hab hka => hx ⟨b, hka ▸ hab⟩
    cases e : done.lookup k with
    | some v =>
      rw [h1 v (by rw [h, e])]
      simp only [hmem, e, Option.isSome_some, if_true]
      obtain ⟨i1, i2⟩ := ih m done h
      exact ⟨by rw [i1], i2⟩
    | none =>
      obtain ⟨a1, a2, a3, a4, -⟩ := h2 (by rw [h, e])
      simp only [hmem, e, Option.isSome_none, Bool.false_eq_true, if_false]
      rcases hw : w.answer k.fallback with ⟨er, b⟩ | v
      · simp only [hw] at a1 a2 a3 a4 ⊢
        obtain ⟨i1, i2⟩ := ih (m.call opt w k).1 done (fun x => by rw [a2]; exact h x)
        rw [a1, i1]
        refine ⟨rfl, ?_⟩
        rw [a3, a4] at i2
        cases b <;> simp only at i2 ⊢ <;> omega
      · simp only [hw] at a1 a2 a3 a4 ⊢
        obtain ⟨i1, i2⟩ := ih (m.call opt w k).1 ((k, v) :: done) (fun x => by
          rw [a2, List.lookup_cons, dget_dset, h x]
          by_cases hx : x = k
          · subst hx; simp
          · have : (x == k) = false := by simpa using hx
            rw [this, if_neg (fun y => hx y.symm)])
        rw [a1, i1]
        refine ⟨rfl, ?_⟩
        have a3 : (m.call opt w k).1.opened = m.opened + 1 := a3
        have a4 : (m.call opt w k).1.closed = m.closed + 1 := a4
        simp only [List.map_cons] at i2
        omega

theorem run_probes (opt : Int) (cs : List (World × Key)) (m : Mtu) :
    ∃ new, (m.run opt cs).1.probes = m.probes ++ new ∧
      ∀ x ∈ new, ∃ c ∈ cs, x = (c.2.src.zeroPort, c.2.dst, c.2.size) := by
  induction cs generalizing m with
  | nil => exact ⟨[], by simp [Mtu.run], by simp⟩
  | cons c cs ih =>
    obtain ⟨w, k⟩ := c
    obtain ⟨new, i1, i2⟩ := ih (m.call opt w k).1
    obtain ⟨h1, h2⟩ := call_spec opt m w k
    have hm : ∃ n1, (m.call opt w k).1.probes = m.probes ++ n1 ∧ ∀ x ∈ n1, x = (k.src.zeroPort, k.dst, k.size) := by
      cases e : dget m.cache k with
      | some v => rw [h1 v e]; exact ⟨[], by simp, by simp⟩
      | none =>
        rw [(h2 e).2.2.2.2]
        split
        · exact ⟨_, rfl, by simp⟩
        · exact ⟨[], by simp, by simp⟩
    obtain ⟨n1, j1, j2⟩ := hm
    refine ⟨n1 ++ new, by simp only [Mtu.run]; rw [i1, j1, List.append_assoc], fun x hx => ?_⟩
    rcases List.mem_append.mp hx with hx | hx
    · exact ⟨(w, k), by simp, j2 x hx⟩
    · obtain ⟨c, hc, e⟩ := i2 x hx
      exact ⟨c, by simp [hc], e⟩

/-- Every probe goes to the peer of some call with its size, from the local host of that call without its port. -/
theorem C114_probes (opt : Int) (cs : List (World × Key)) :
    ∀ x ∈ (Mtu.init.run opt cs).1.probes, x.1.port = 0 ∧
      ∃ c ∈ cs, x.1.name = c.2.src.name ∧ x.1.fam = c.2.src.fam ∧ x.2 = (c.2.dst, c.2.size) := by
  obtain ⟨new, h1, h2⟩ := run_probes opt cs .init
  intro x hx
  rw [h1] at hx
  obtain ⟨c, hc, rfl⟩ := h2 x (by simpa [Mtu.init] using hx)
  obtain ⟨z1, z2, z3, -⟩ := C114_zero c.2.src
  exact ⟨z1, c, hc, z3, z2, rfl⟩

theorem answers_const (cs : List (World × Key)) (done : List (Key × Int)) (k : Key) (v : Int)
    (h : done.lookup k = some v) : ∀ r, (k, r) ∈ answers done cs → r = .ok v := by
  induction cs generalizing done with
  | nil => simp [answers]
  | cons c cs ih =>
    obtain ⟨w, j⟩ := c
    intro r hr
    simp only [answers] at hr
    split at hr
    · next u hu =>
      rcases List.mem_cons.mp hr with e | e
      · cases e
        rw [h] at hu
        cases hu
        rfl
      · exact ih done h r e
    · next hu =>
      split at hr
      · next u hv =>
        rcases List.mem_cons.mp hr with e | e
        · cases e
          rw [h] at hu
          cases hu
        · refine ih _ ?_ r e
          rw [List.lookup_cons]
          have : (k == j) = false := by
            rw [beq_eq_false_iff_ne]
            rintro rfl
            rw [h] at hu
            cases hu
          rw [this]
          exact h
      · next er hv =>
        rcases List.mem_cons.mp hr with e | e
        · cases e
          rw [h] at hu
          cases hu
        · exact ih done h r e

/-- The first answer for a pair of hosts is the answer for ever; it is what the sockets gave then, the calls before it
failed, and a call that failed leaves no trace in later answers. -/
theorem C114_mtu (opt : Int) (before after : List (World × Key)) (w : World) (k : Key)
    (hb : ∀ c ∈ before, c.2 = k → ∃ e, c.1.answer k.fallback = .error e) :
    (∀ r, (k, r) ∈ (Mtu.init.run opt before).2 → ∃ e, r = .error e) ∧
    (∀ e, w.answer k.fallback = .error e →
      ((Mtu.init.run opt before).1.call opt w k).2 = .error e.1) ∧
    (∀ v, w.answer k.fallback = .ok v →
      ((Mtu.init.run opt before).1.call opt w k).2 = .ok v ∧
      ∀ r, (k, r) ∈ (((Mtu.init.run opt before).1.call opt w k).1.run opt after).2 → r = .ok v) := by
  have key : ∀ (cs : List (World × Key)) (m : Mtu), dget m.cache k = none →
      (∀ c ∈ cs, c.2 = k → ∃ e, c.1.answer k.fallback = .error e) →
      dget (m.run opt cs).1.cache k = none ∧ ∀ r, (k, r) ∈ (m.run opt cs).2 → ∃ e, r = .error e := by
    intro cs
    induction cs with
    | nil => exact fun m h _ => ⟨h, by simp [Mtu.run]⟩
    | cons c cs ih =>
      intro m h hc
      obtain ⟨w, j⟩ := c
      obtain ⟨h1, h2⟩ := call_spec opt m w j
      have hn : dget (m.call opt w j).1.cache k = none := by
        cases e : dget m.cache j with
        | some v => rw [h1 v e]; exact h
        | none =>
          rw [(h2 e).2.1]
          split
          · next v hv =>
            by_cases hj : j = k
            · obtain ⟨er, her⟩ := hc (w, j) (by simp) hj
              subst hj
              rw [hv] at her
              cases her
            · rw [dget_dset_ne _ _ _ _ hj]
              exact h
          · exact h
      obtain ⟨i1, i2⟩ := ih _ hn (fun c hc' => hc c (by simp [hc']))
      refine ⟨i1, fun r hr => ?_⟩
      simp only [Mtu.run, List.mem_cons] at hr
      rcases hr with hr | hr
      · cases hr
        obtain ⟨er, her⟩ := hc (w, k) (by simp) rfl
        dsimp only at her
        exact ⟨er.1, by rw [(h2 h).1, her]⟩
      · exact i2 r hr
  obtain ⟨k1, k2⟩ := key before .init (by simp [Mtu.init, dget_nil]) hb
  obtain ⟨-, h2⟩ := call_spec opt (Mtu.init.run opt before).1 w k
  obtain ⟨a1, a2, -⟩ := h2 k1
  refine ⟨k2, fun e he => by rw [a1, he], fun v hv => ⟨by rw [a1, hv], fun r hr => ?_⟩⟩
  rw [hv] at a2
  have key2 : ∀ (cs : List (World × Key)) (m : Mtu), dget m.cache k = some v →
      ∀ r, (k, r) ∈ (m.run opt cs).2 → r = .ok v := by
    intro cs
    induction cs with
    | nil => simp [Mtu.run]
    | cons c cs ih =>
      intro m h r hr
      obtain ⟨w', j⟩ := c
      obtain ⟨g1, g2⟩ := call_spec opt m w' j
      have hn : dget (m.call opt w' j).1.cache k = some v := by
        cases e : dget m.cache j with
        | some v => rw [g1 v e]; exact h
        | none =>
          rw [(g2 e).2.1]
          split
          · have hj : j ≠ k := fun x => by rw [x, h] at e; cases e
            rw [dget_dset_ne _ _ _ _ hj]
            exact h
          · exact h
      simp only [Mtu.run, List.mem_cons] at hr
      rcases hr with hr | hr
      · cases hr
        rw [g1 v h]
      · exact ih _ hn r hr
  exact key2 after _ (by rw [a2]; exact dget_dset_self _ _ _) r hr

/-- Every socket is closed but those of calls that failed after making one; so all are closed after histories without
failures. -/
theorem C114_closed_partial (opt : Int) (cs : List (World × Key)) :
    (Mtu.init.run opt cs).1.opened = (Mtu.init.run opt cs).1.closed + leaks [] cs ∧
    ((∀ c ∈ cs, ∃ v, c.1.answer c.2.fallback = .ok v) → leaks [] cs = 0) := by
  obtain ⟨-, h⟩ := run_mtu opt cs .init [] (fun _ => rfl)
  refine ⟨by simpa [Mtu.init] using h, fun hc => ?_⟩
  have : ∀ (cs : List (World × Key)) done, (∀ c ∈ cs, ∃ v, c.1.answer c.2.fallback = .ok v) → leaks done cs = 0 := by
    intro cs
    induction cs with
    | nil => exact fun _ _ => rfl
    | cons c cs ih =>
      intro done hc
      obtain ⟨v, hv⟩ := hc c (by simp)
      simp only [leaks, hv]
      split <;> exact ih _ (fun c h => hc c (by simp [h]))
  exact this cs [] hc

/-- A peer that cannot be reached: every call makes a socket and closes none. -/
theorem C114_closed_fails (opt : Int) (w : World) (k : Key) (e : PyErr) (hr : w.resolve = none) (hb : w.bind = none)
    (hc : w.connect = some e) (n : Nat) :
    (Mtu.init.run opt (List.replicate n (w, k))).1.opened = n ∧
    (Mtu.init.run opt (List.replicate n (w, k))).1.closed = 0 := by
  have : ∀ n (m : Mtu), dget m.cache k = none → (m.run opt (List.replicate n (w, k))).1.opened = m.opened + n ∧
      (m.run opt (List.replicate n (w, k))).1.closed = m.closed := by
    intro n
    induction n with
    | zero => exact fun m _ => ⟨rfl, rfl⟩
    | succ n ih =>
      intro m hm
      simp only [List.replicate_succ, Mtu.run]
      have e : (m.call opt w k).1 = { m with opened := m.opened + 1 } := by simp [Mtu.call, hm, hr, hb, hc]
      rw [e]
      obtain ⟨h1, h2⟩ := ih { m with opened := m.opened + 1 } hm
      exact ⟨by rw [h1]; dsimp only; omega, h2⟩
  simpa [Mtu.init] using this n .init (by simp [Mtu.init, dget_nil])

/-- If the system reported no size at the first call, the fallback stays the answer, whatever it reports later. -/
theorem C114_stale_fails (opt : Int) (w : World) (k : Key) (cs : List (World × Key)) (hr : w.resolve = none)
    (hb : w.bind = none) (hc : w.connect = none) (hp : w.probe = none ∨ w.probe = some none) (hm : w.mtu = none) :
    ∀ r, (k, r) ∈ (Mtu.init.run opt ((w, k) :: cs)).2 → r = .ok k.fallback := by
  have ha : w.answer k.fallback = .ok k.fallback := by
    unfold World.answer
    rcases hp with h | h <;> simp [hr, hb, hc, h, hm]
  obtain ⟨-, -, h⟩ := C114_mtu opt [] cs w k (by simp)
  obtain ⟨h1, h2⟩ := h _ ha
  intro r hr
  simp only [Mtu.run, List.mem_cons] at hr
  rcases hr with hr | hr
  · cases hr
    exact h1
  · exact h2 r hr

/-- Without a local host that of the destination's family is taken; a given one is kept. -/
theorem C114_local (dst : Args) (src : Option Host) (size fallback kind : Int) (create : Nat) (k : Key)
    (h : discoverKey dst src size fallback kind create = .ok k) :
    normalize .inet dst = .ok k.dst ∧ (src = none → k.src.fam = k.dst.fam ∧ k.src.name = "" ∧ k.src.port = 0) ∧
    (∀ s, src = some s → k.src = s) ∧ k.size = size ∧ k.fallback = fallback ∧ k.kind = kind ∧ k.create = create := by
  unfold discoverKey at h
  cases e : normalize .inet dst with
  | error e' => rw [e] at h; cases h
  | ok d =>
    rw [e] at h
    cases src with
    | none =>
      simp only [normalize] at h
      cases h
      refine ⟨rfl, fun _ => ?_, fun s hs => (by cases hs), rfl, rfl, rfl, rfl⟩
      cases d <;> exact ⟨rfl, rfl, rfl⟩
    | some s =>
      simp only [normalize] at h
      cases h
      exact ⟨rfl, fun hs => (by cases hs), fun _ hs => by cases hs; rfl, rfl, rfl, rfl, rfl⟩

/-! ### Cases -/

/-- A name service that answers `a` for every address, and one that fails. -/
def saying (a : String) : Net := ⟨fun _ => some a, a⟩
def failing : Net := ⟨fun _ => none, "me"⟩

def goodWorld (m : Nat) : World := ⟨none, none, none, true, true, none, true, some m⟩
def lostWorld : World := ⟨none, none, some .runtime, true, true, none, true, none⟩
def exKey : Key := ⟨.v4 "" 5, .v4 "b" 9, 1432, 1500, 2, 0⟩

/-- The hypotheses are met: two hosts with colliding hashes and a service that changes its mind; a peer lost first,
then found with 1400 bytes, then with 9000. -/
theorem C114_cases :
    ((St.init.run (fun _ => 0) [.endpoint failing (saying "x") (saying "y") (.v4 "a" 1), .text (saying "z") (.v4 "a" 2),
      .endpoint (saying "u") failing failing (.v6 "a" 1 0 0), .endpoint failing failing failing (.v4 "a" 1),
      .hostname (saying "q") "::"]).2.map (fun o => match o with
        | .endpoint _ (.ok e) => (e, "")
        | .text _ t => (9, t)
        | .hostname _ t => (8, t)
        | _ => (7, ""))) = [(0, ""), (9, "a:2"), (1, ""), (0, ""), (8, "q")] ∧
    (Mtu.init.run 0 [(lostWorld, exKey), (goodWorld 1400, exKey), (goodWorld 9000, exKey)]).2.map
      (fun r => r.2.toOption) = [none, some 1400, some 1400] ∧
    (Mtu.init.run 0 [(lostWorld, exKey), (goodWorld 1400, exKey), (goodWorld 9000, exKey)]).1.opened = 2 ∧
    (Mtu.init.run 0 [(lostWorld, exKey), (goodWorld 1400, exKey), (goodWorld 9000, exKey)]).1.closed = 1 := by
  decide +kernel

end Verif.Hosts
