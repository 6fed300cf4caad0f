import Verif.Base
import Verif.Dict

/-!
C85: the ports of a configuration and the `server` command (net/arbiter/config/codec.py 29–58,
net/arbiter/config/util.py 24–54, net/arbiter/config/__init__.py 142–200, net/util.py 173–208,
commands/server.py 20–125).

`list_resolve_env_vars` and `dict_resolve_env_vars` (vcorelib) are assumed to replace, at any depth, a string
`$name` by the value of `name` in the given table and to leave everything else. Markdown is left out of the keyword
arguments. The operating system answers each request for a socket as it likes (parameter `os`).
-/
namespace Verif.Arbiter.Ports
open Verif

abbrev Str := List Char

/-- A configuration value; tuples occur only in arguments. -/
inductive V where
  | null
  | bool (b : Bool)
  | int (i : Int)
  | str (s : Str)
  | list (l : List V)
  | tup (l : List V)
  | dict (d : List (Str × V))

/-- A keyword argument's name. -/
inductive Kw where
  | host | port | localAddr | remoteAddr | cafile | capath | cadata | certfile | keyfile
  | other (s : Str)
  deriving DecidableEq

abbrev Kwargs := List (Kw × V)

abbrev Table := List (Str × Nat)

/-- The number that `$name` stands for. -/
def lookup (ports : Table) : Str → Option Nat
  | '$' :: n => dget ports n
  | _ => none

/-! ### Resolution (vcorelib, assumed) -/

mutual
def resolve (ports : Table) : V → V
  | .str s => match lookup ports s with | some p => .int p | none => .str s
  | .list l => .list (resolveL ports l)
  | .dict d => .dict (resolveD ports d)
  | v => v
def resolveL (ports : Table) : List V → List V
  | [] => []
  | v :: l => resolve ports v :: resolveL ports l
def resolveD (ports : Table) : List (Str × V) → List (Str × V)
  | [] => []
  | (k, v) :: l => (k, resolve ports v) :: resolveD ports l
end

/-! ### fix_args, fix_kwargs -/

/-- `item.split(":")` -/
def split : Str → List Str
  | [] => [[]]
  | c :: s => if c = ':' then [] :: split s else
    match split s with
    | [] => [[c]]
    | a :: r => (c :: a) :: r

/-- `":".join(...)` -/
def join : List Str → Str
  | [] => []
  | [a] => a
  | a :: b :: r => a ++ ':' :: join (b :: r)

def part (ports : Table) (s : Str) : Str :=
  match lookup ports s with
  | some p => Nat.toDigits 10 p
  | none => s

/-- `fix_args`, config/util.py 37–54, for one text. -/
def fixText (ports : Table) (s : Str) : Str := join ((split s).map (part ports))

def fixArg (ports : Table) : V → V
  | .str s => .str (fixText ports s)
  | v => v

/-- `tuple(value)` -/
def asTuple : V → Except PyErr V
  | .list l => .ok (.tup l)
  | .tup l => .ok (.tup l)
  | .str s => .ok (.tup (s.map fun c => .str [c]))
  | .dict d => .ok (.tup (d.map fun p => .str p.1))
  | _ => .error .type

def fixKey (d : Kwargs) (key : Kw) : Except PyErr (Kwargs) :=
  match dget d key with
  | some v => (asTuple v).map (dset d key)
  | none => .ok d

/-- `fix_kwargs`, config/util.py 24–34. -/
def fixKwargs (d : Kwargs) : Except PyErr (Kwargs) :=
  (fixKey d .localAddr).bind fun d => fixKey d .remoteAddr

/-! ### Ports, codec.py 36–58 -/

structure PortItem where
  name : Str
  udp : Bool
  host : Str
  port : Nat
  deriving DecidableEq

/-- The answer to the i-th request for a socket: the port it is bound to. -/
abbrev Os := Nat → Bool → Str → Nat → Except PyErr Nat

/-- A bound socket has the port asked for, or some port if asked for port 0. -/
def Os.Sane (os : Os) : Prop := ∀ i u h p q, os i u h p = .ok q → q ≠ 0 ∧ (p ≠ 0 → q = p)

def assign (os : Os) (overrides : Table) : Nat → List PortItem → Table → Except PyErr (Table × List PortItem)
  | _, [], t => .ok (t, [])
  | i, x :: l, t =>
    match os i x.udp x.host ((dget overrides x.name).getD x.port) with
    | .error e => .error e
    | .ok p => (assign os overrides (i + 1) l (dset t x.name p)).map fun r => (r.1, { x with port := p } :: r.2)

/-! ### Clients and servers, config/__init__.py 163–200 -/

structure Client where
  name : Str
  factory : Str
  args : List V
  kwargs : Kwargs

structure Server where
  factory : Str
  args : List V
  kwargs : Kwargs

def resolveK (ports : Table) (d : Kwargs) : Kwargs := d.map fun p => (p.1, resolve ports p.2)

/-- The arguments that the client's factory is called with. -/
def clientCall (ports : Table) (c : Client) : Except PyErr (List V × Kwargs) :=
  (fixKwargs (resolveK ports c.kwargs)).map fun kw => ((resolveL ports c.args).map (fixArg ports), kw)

/-- The arguments that the server's factory is called with. -/
def serverCall (ports : Table) (s : Server) : List V × Kwargs := (resolveL ports s.args, resolveK ports s.kwargs)

/-! ### The `server` command, commands/server.py -/

structure Args where
  factory : Str
  host : Str
  port : Nat
  udp : Bool
  loopback : Bool
  cafile : Option Str
  capath : Option Str
  cadata : Option Str
  certfile : Option Str
  keyfile : Option Str

def portName (a : Args) (what : Str) : Str := a.factory ++ (if a.udp then "_udp_".toList else "_tcp_".toList) ++ what

/-- `f"${port_name(args)}"` -/
def portVar (a : Args) : Str := '$' :: portName a "port".toList

/-- `PASSTHROUGH` options that were given, in order. -/
def passed (a : Args) : Kwargs :=
  [(Kw.cafile, a.cafile), (.capath, a.capath), (.cadata, a.cadata), (.certfile, a.certfile), (.keyfile, a.keyfile)].filterMap
    fun p => p.2.map fun v => (p.1, V.str v)

/-- `get_kwargs` -/
def getKwargs (a : Args) (kw : Kwargs) : Kwargs := (passed a).foldl (fun d p => dset d p.1 p.2) kw

/-- `is_ssl` -/
def isSsl (kw : Kwargs) : Bool :=
  [Kw.cafile, .capath, .cadata, .certfile].any fun x => (dget kw x).isSome

def lower (s : Str) : Str := s.map Char.toLower

/-- `x in y` for texts -/
def within (x : Str) : Str → Bool
  | [] => x.isPrefixOf []
  | c :: s => x.isPrefixOf (c :: s) || within x s

/-- `is_websocket` -/
def isWebsocket (a : Args) : Bool := within "websocket".toList (lower a.factory)

def serverData (a : Args) : Server :=
  ⟨a.factory, [], getKwargs a [(.port, .str (portVar a)), (.host, .str a.host)]⟩

def clientData (a : Args) : Client :=
  let name := portName a "client".toList
  if isWebsocket a then
    ⟨name, a.factory, [.str ((if isSsl (getKwargs a []) then "wss".toList else "ws".toList) ++ "://localhost:".toList ++ portVar a)], []⟩
  else if !a.udp then
    ⟨name, a.factory, [], [(.host, .str "localhost".toList), (.port, .str (portVar a))]⟩
  else ⟨name, a.factory, [], [(.remoteAddr, .list [.str "localhost".toList, .str (portVar a)])]⟩

structure Config where
  clients : List Client
  servers : List Server
  ports : List PortItem

/-- `config_data`, without the included files. -/
def configData (a : Args) : Config :=
  { servers := if !a.udp then [serverData a] else []
    clients := (if !a.udp then [] else
        [⟨portName a "server".toList, a.factory, [],
          getKwargs a [(.localAddr, .list [.str "0.0.0.0".toList, .str (portVar a)])]⟩])
      ++ (if a.loopback then [clientData a] else [])
    ports := [⟨portName a "port".toList, a.udp, [], a.port⟩] }

/-! ### Texts -/

theorem split_ne (s : Str) : split s ≠ [] := by
  cases s with
  | nil => simp [split]
  | cons c s =>
    rw [split]
    split
    · simp
    · split <;> simp

theorem join_split (s : Str) : join (split s) = s := by
  induction s with
  | nil => rfl
  | cons c s ih =>
    rw [split]
    by_cases hc : c = ':'
    · rw [if_pos hc]
      cases h : split s with
      | nil => exact absurd h (split_ne s)
      | cons a r => rw [h] at ih; rw [join, ih, hc]; rfl
    · rw [if_neg hc]
      cases h : split s with
      | nil => exact absurd h (split_ne s)
      | cons a r =>
        rw [h] at ih
        dsimp only
        cases r with
        | nil => rw [join] at ih; rw [join, ih]
        | cons b r => rw [join] at ih; rw [join, List.cons_append, ih]

theorem split_plain (s : Str) (h : ':' ∉ s) : split s = [s] := by
  induction s with
  | nil => rfl
  | cons c s ih =>
    rw [List.mem_cons, not_or] at h
    rw [split, if_neg (fun e => h.1 e.symm), ih h.2]

theorem split_join (a b : Str) : split (a ++ ':' :: b) = split a ++ split b := by
  induction a with
  | nil => simp [split]
  | cons c a ih =>
    rw [List.cons_append, split, split]
    by_cases hc : c = ':'
    · rw [if_pos hc, if_pos hc, ih]; rfl
    · rw [if_neg hc, if_neg hc, ih]
      cases h : split a with
      | nil => exact absurd h (split_ne a)
      | cons x r => rfl

theorem join_append (x y : List Str) (hx : x ≠ []) (hy : y ≠ []) : join (x ++ y) = join x ++ ':' :: join y := by
  induction x with
  | nil => exact absurd rfl hx
  | cons a x ih =>
    cases x with
    | nil =>
      cases y with
      | nil => exact absurd rfl hy
      | cons b y => rfl
    | cons b x =>
      have := ih (by simp)
      rw [List.cons_append, List.cons_append, join, join, ← List.cons_append, this, List.append_assoc, List.cons_append]

/-- A text is fixed between its colons. -/
theorem C85_text (ports : Table) :
    (∀ a b, fixText ports (a ++ ':' :: b) = fixText ports a ++ ':' :: fixText ports b) ∧
    (∀ n p, ':' ∉ n → dget ports n = some p → fixText ports ('$' :: n) = Nat.toDigits 10 p) ∧
    (∀ n, ':' ∉ n → dget ports n = none → fixText ports ('$' :: n) = '$' :: n) ∧
    (∀ s, '$' ∉ s → fixText ports s = s) := by
  refine ⟨?_, ?_, ?_, ?_⟩
  · intro a b
    rw [fixText, split_join, List.map_append, join_append _ _ (by simp [split_ne]) (by simp [split_ne])]
    rfl
  · intro n p hn hp
    rw [fixText, split_plain _ (by simp [hn])]
    simp [part, lookup, hp, join]
  · intro n hn hp
    rw [fixText, split_plain _ (by simp [hn])]
    simp [part, lookup, hp, join]
  · intro s hs
    rw [fixText]
    have key : ∀ x ∈ split s, part ports x = x := by
      have mem : ∀ s : Str, ∀ x ∈ split s, ∀ c ∈ x, c ∈ s := by
        intro s
        induction s with
        | nil => intro x hx c hc; rw [split, List.mem_singleton] at hx; rw [hx] at hc; exact hc
        | cons d s ih =>
          intro x hx c hc
          rw [split] at hx
          split at hx
          · rcases List.mem_cons.mp hx with rfl | hx
            · cases hc
            · exact List.mem_cons_of_mem _ (ih x hx c hc)
          · split at hx
            · rename_i h; exact absurd h (split_ne s)
            · rename_i a r h
              rcases List.mem_cons.mp hx with rfl | hx
              · rcases List.mem_cons.mp hc with rfl | hc
                · exact List.mem_cons_self
                · exact List.mem_cons_of_mem _ (ih a (by rw [h]; exact List.mem_cons_self) c hc)
              · exact List.mem_cons_of_mem _ (ih x (by rw [h]; exact List.mem_cons_of_mem _ hx) c hc)
      intro x hx
      have hd : '$' ∉ x := fun h => hs (mem s x hx _ h)
      unfold part lookup
      split
      · rename_i p hp
        split at hp
        · exact absurd List.mem_cons_self hd
        · cases hp
      · rfl
    rw [List.map_congr_left key, List.map_id', join_split]

/-- A variable followed by anything but a colon is not resolved, a path for instance. -/
theorem C85_path_fails (ports : Table) (host n path : Str) (hh : '$' ∉ host) (hn : ':' ∉ n ++ '/' :: path)
    (hp : dget ports (n ++ '/' :: path) = none) :
    fixText ports (host ++ ':' :: '$' :: (n ++ '/' :: path)) = host ++ ':' :: '$' :: (n ++ '/' :: path) := by
  obtain ⟨t1, _, t3, t4⟩ := C85_text ports
  rw [t1, t4 host hh, t3 _ hn hp]

/-! ### Values -/

mutual
/-- No string of the value, at any depth, names a port. -/
def noVars (ports : Table) : V → Prop
  | .str s => lookup ports s = none
  | .list l => noVarsL ports l
  | .dict d => noVarsD ports d
  | _ => True
def noVarsL (ports : Table) : List V → Prop
  | [] => True
  | v :: l => noVars ports v ∧ noVarsL ports l
def noVarsD (ports : Table) : List (Str × V) → Prop
  | [] => True
  | (_, v) :: l => noVars ports v ∧ noVarsD ports l
end

mutual
theorem resolve_none (ports : Table) : ∀ v, noVars ports (resolve ports v) ∧ (noVars ports v → resolve ports v = v)
  | .str s => by
    cases h : lookup ports s with
    | none => simp [resolve, h, noVars]
    | some p => simp [resolve, h, noVars]
  | .list l => by
    have := resolveL_none ports l
    exact ⟨by simpa [resolve, noVars] using this.1, fun h => by simp only [noVars] at h; simp only [resolve, this.2 h]⟩
  | .dict d => by
    have := resolveD_none ports d
    exact ⟨by simpa [resolve, noVars] using this.1, fun h => by simp only [noVars] at h; simp only [resolve, this.2 h]⟩
  | .null => by simp [resolve, noVars]
  | .bool b => by simp [resolve, noVars]
  | .int i => by simp [resolve, noVars]
  | .tup l => by simp [resolve, noVars]
theorem resolveL_none (ports : Table) : ∀ l, noVarsL ports (resolveL ports l) ∧ (noVarsL ports l → resolveL ports l = l)
  | [] => by simp [resolveL, noVarsL]
  | v :: l => by
    have h1 := resolve_none ports v
    have h2 := resolveL_none ports l
    refine ⟨by simp only [resolveL, noVarsL]; exact ⟨h1.1, h2.1⟩, fun h => ?_⟩
    simp only [noVarsL] at h
    simp only [resolveL, h1.2 h.1, h2.2 h.2]
theorem resolveD_none (ports : Table) : ∀ d, noVarsD ports (resolveD ports d) ∧ (noVarsD ports d → resolveD ports d = d)
  | [] => by simp [resolveD, noVarsD]
  | (k, v) :: l => by
    have h1 := resolve_none ports v
    have h2 := resolveD_none ports l
    refine ⟨by simp only [resolveD, noVarsD]; exact ⟨h1.1, h2.1⟩, fun h => ?_⟩
    simp only [noVarsD] at h
    simp only [resolveD, h1.2 h.1, h2.2 h.2]
end

/-- A server's arguments name no port any more, at any depth, keywords keep their names, and what named none is
unchanged. -/
theorem C85_values (ports : Table) (s : Server) :
    noVarsL ports (serverCall ports s).1 ∧ (∀ p ∈ (serverCall ports s).2, noVars ports p.2) ∧
    (serverCall ports s).2.map Prod.fst = s.kwargs.map Prod.fst ∧
    (noVarsL ports s.args → (serverCall ports s).1 = s.args) ∧ ((∀ p ∈ s.kwargs, noVars ports p.2) → (serverCall ports s).2 = s.kwargs) := by
  refine ⟨(resolveL_none ports _).1, ?_, ?_, (resolveL_none ports _).2, ?_⟩
  · intro p hp
    obtain ⟨q, -, rfl⟩ := List.mem_map.mp hp
    exact (resolve_none ports q.2).1
  · simp only [serverCall, resolveK, List.map_map]
    rfl
  · intro h
    simp only [serverCall, resolveK]
    rw [List.map_congr_left (g := id) (fun p hp => by rw [(resolve_none ports p.2).2 (h p hp)]; rfl), List.map_id]

/-- A port variable behind a host is resolved for clients, not for servers. -/
theorem C85_server_fails (ports : Table) (f host n : Str) (p : Nat) (hh : '$' ∉ host) (hn : ':' ∉ n)
    (hp : dget ports n = some p) :
    (serverCall ports ⟨f, [.str (host ++ ':' :: '$' :: n)], []⟩).1 = [.str (host ++ ':' :: '$' :: n)] ∧
    (clientCall ports ⟨f, f, [.str (host ++ ':' :: '$' :: n)], []⟩).map (·.1) = .ok [.str (host ++ ':' :: Nat.toDigits 10 p)] := by
  have hl : lookup ports (host ++ ':' :: '$' :: n) = none := by
    cases host with
    | nil => rfl
    | cons c host =>
      unfold lookup
      split
      · rename_i h
        rw [List.cons_append, List.cons.injEq] at h
        rw [h.1] at hh
        exact absurd List.mem_cons_self hh
      · rfl
  obtain ⟨t1, t2, _, t4⟩ := C85_text ports
  have e1 : resolveL ports [.str (host ++ ':' :: '$' :: n)] = [.str (host ++ ':' :: '$' :: n)] := by
    simp only [resolveL, resolve, hl]
  refine ⟨e1, ?_⟩
  have e2 : fixText ports (host ++ ':' :: '$' :: n) = host ++ ':' :: Nat.toDigits 10 p := by
    rw [t1, t4 host hh, t2 n p hn hp]
  rw [clientCall]
  simp only [e1]
  have e3 : fixKwargs (resolveK ports []) = .ok [] := rfl
  rw [e3]
  simp only [Except.map, List.map_cons, List.map_nil, fixArg, e2]

/-! ### Ports -/

theorem assign_inv (os : Os) (ov : Table) (l : List PortItem) : ∀ (i : Nat) (t : Table) (r : Table × List PortItem),
    assign os ov i l t = .ok r →
    r.2.length = l.length ∧
    (∀ j (x : PortItem), l[j]? = some x → ∃ q, os (i + j) x.udp x.host ((dget ov x.name).getD x.port) = .ok q ∧
      r.2[j]? = some { x with port := q }) ∧
    (∀ n, dget r.1 n = match r.2.reverse.find? (·.name == n) with | some x => some x.port | none => dget t n) := by
  induction l with
  | nil =>
    intro i t r h
    simp only [assign, Except.ok.injEq] at h
    subst h
    refine ⟨rfl, ?_, ?_⟩
    · intro j x hx; simp at hx
    · intro n; rfl
  | cons x l ih =>
    intro i t r h
    rw [assign] at h
    cases ho : os i x.udp x.host ((dget ov x.name).getD x.port) with
    | error e => rw [ho] at h; cases h
    | ok p =>
      rw [ho] at h
      dsimp only at h
      cases ha : assign os ov (i + 1) l (dset t x.name p) with
      | error e => rw [ha] at h; cases h
      | ok r' =>
        rw [ha] at h
        simp only [Except.map, Except.ok.injEq] at h
        subst h
        obtain ⟨h1, h2, h3⟩ := ih _ _ _ ha
        refine ⟨by simp [h1], ?_, ?_⟩
        · intro j y hy
          cases j with
          | zero =>
            simp only [List.getElem?_cons_zero, Option.some.injEq] at hy
            subst hy
            exact ⟨p, ho, rfl⟩
          | succ j =>
            simp only [List.getElem?_cons_succ] at hy ⊢
            obtain ⟨q, hq1, hq2⟩ := h2 j y hy
            exact ⟨q, by rw [show i + (j + 1) = i + 1 + j by omega]; exact hq1, hq2⟩
        · intro n
          dsimp only
          rw [h3 n, List.reverse_cons, List.find?_append]
          cases hf : r'.2.reverse.find? (·.name == n) with
          | some y => rfl
          | none =>
            dsimp only
            rw [Option.none_or, dget_dset, List.find?_cons]
            by_cases hn : x.name = n
            · simp [hn]
            · have : (x.name == n) = false := by simp [hn]
              simp [hn, this]

/-- A configuration whose ports are accepted: every item is written back with the port its socket got, which is the
override of its name, else its own port, where these are not 0; a name stands for the port of its last item. -/
theorem C85_ports (os : Os) (hos : os.Sane) (ov : Table) (l : List PortItem) (t : Table) (l' : List PortItem)
    (h : assign os ov 0 l [] = .ok (t, l')) :
    l'.length = l.length ∧
    (∀ (j : Nat) (x : PortItem), l[j]? = some x → ∃ q, l'[j]? = some { x with port := q } ∧ q ≠ 0 ∧
      (∀ o, dget ov x.name = some o → o ≠ 0 → q = o) ∧ (dget ov x.name = none → x.port ≠ 0 → q = x.port)) ∧
    (∀ n, dget t n = (l'.reverse.find? (·.name == n)).map PortItem.port) ∧
    (∀ n, n ∉ l.map PortItem.name → dget t n = none) := by
  obtain ⟨h1, h2, h3⟩ := assign_inv os ov l 0 [] _ h
  have h4 : ∀ n, dget t n = (l'.reverse.find? (·.name == n)).map PortItem.port := by
    intro n
    rw [show dget t n = _ from h3 n]
    cases l'.reverse.find? (·.name == n) <;> rfl
  refine ⟨h1, ?_, h4, ?_⟩
  · intro j x hx
    obtain ⟨q, hq1, hq2⟩ := h2 j x hx
    obtain ⟨s1, s2⟩ := hos _ _ _ _ _ hq1
    refine ⟨q, hq2, s1, ?_, ?_⟩
    · intro o ho hne; rw [ho] at s2; exact s2 hne
    · intro ho hne; rw [ho] at s2; exact s2 hne
  · intro n hn
    rw [h4 n]
    have : l'.reverse.find? (·.name == n) = none := by
      rw [List.find?_eq_none]
      intro y hy he
      rw [List.mem_reverse] at hy
      obtain ⟨j, hj⟩ := List.mem_iff_getElem?.mp hy
      have hlt : j < l.length := by
        have := (List.getElem?_eq_some_iff.mp hj).1
        rw [h1] at this
        exact this
      obtain ⟨q, -, hq⟩ := h2 j l[j] (List.getElem?_eq_getElem hlt)
      have e : y = { l[j] with port := q } := by
        have := hj.symm.trans hq
        exact Option.some.inj this
      apply hn
      have e2 : l[j].name = n := by
        have := beq_iff_eq.mp he
        rw [e] at this
        exact this
      rw [← e2]
      exact List.mem_map_of_mem (List.getElem_mem hlt)
    rw [this]; rfl

/-- Ports are not checked against each other: where the system grants a port to two requests (each socket is closed
before the next), both names get it. -/
theorem C85_shared_fails (os : Os) (hos : os.Sane) (m n : Str) (hmn : m ≠ n) (h1 h2 : Str) (p : Nat) (hp : p ≠ 0)
    (g : ∀ i h, ∃ q, os i false h p = .ok q) :
    ∃ t l', assign os [] 0 [⟨m, false, h1, p⟩, ⟨n, false, h2, p⟩] [] = .ok (t, l') ∧ dget t m = some p ∧ dget t n = some p := by
  have e : ∀ i h, os i false h p = .ok p := by
    intro i h
    obtain ⟨q, hq⟩ := g i h
    rw [hq, (hos _ _ _ _ _ hq).2 hp]
  refine ⟨dset (dset [] m p) n p, [⟨m, false, h1, p⟩, ⟨n, false, h2, p⟩], ?_, ?_, ?_⟩
  · simp [assign, dget_nil, e, Except.map]
  · rw [dget_dset_ne _ _ _ _ (Ne.symm hmn), dget_dset_self]
  · rw [dget_dset_self]

/-- A name given twice: the first item, written back, shows a port that its name does not stand for. -/
theorem C85_double_fails (os : Os) (hos : os.Sane) (n h : Str) (p q : Nat) (hp : p ≠ 0) (hq : q ≠ 0) (hpq : p ≠ q)
    (t : Table) (l' : List PortItem)
    (ha : assign os [] 0 [⟨n, false, h, p⟩, ⟨n, false, h, q⟩] [] = .ok (t, l')) :
    l'[0]? = some ⟨n, false, h, p⟩ ∧ dget t n = some q ∧ dget t n ≠ some p := by
  obtain ⟨-, k2, k3, -⟩ := C85_ports os hos [] _ t l' ha
  obtain ⟨a, a1, -, -, a2⟩ := k2 0 _ rfl
  obtain ⟨b, b1, -, -, b2⟩ := k2 1 _ rfl
  have ea := a2 rfl hp
  have eb := b2 rfl hq
  dsimp only at ea eb a1 b1
  have hl : l'.length = 2 := (C85_ports os hos [] _ t l' ha).1
  match l', hl with
  | [x, y], _ =>
    simp only [List.getElem?_cons_zero, List.getElem?_cons_succ, Option.some.injEq] at a1 b1
    subst a1; subst b1; subst ea; subst eb
    have := k3 n
    simp at this
    rw [this]
    refine ⟨rfl, rfl, ?_⟩
    simp
    exact fun e => hpq e.symm

/-! ### The server command -/

theorem dget_getKwargs (a : Args) (kw : Kwargs) (k : Kw)
    (hk : k ∉ [Kw.cafile, .capath, .cadata, .certfile, .keyfile]) :
    dget (getKwargs a kw) k = dget kw k := by
  have key : ∀ (l : Kwargs) (d : Kwargs), (∀ p ∈ l, p.1 ≠ k) →
      dget (l.foldl (fun d p => dset d p.1 p.2) d) k = dget d k := by
    intro l
    induction l with
    | nil => intro d _; rfl
    | cons p l ih =>
      intro d h
      rw [List.foldl_cons, ih _ (fun q hq => h q (List.mem_cons_of_mem _ hq)), dget_dset_ne _ _ _ _ (h p List.mem_cons_self)]
  apply key
  intro p hp e
  rw [passed, List.mem_filterMap] at hp
  obtain ⟨x, hx, hv⟩ := hp
  have : p.1 = x.1 := by
    cases h2 : x.2 with
    | none => rw [h2] at hv; cases hv
    | some v => rw [h2] at hv; simp at hv; rw [← hv]
  apply hk
  rw [← e, this]
  simp only [List.mem_cons, List.not_mem_nil, or_false] at hx ⊢
  rcases hx with rfl | rfl | rfl | rfl | rfl <;> simp

theorem dget_resolveK (ports : Table) (d : Kwargs) (k : Kw) :
    dget (resolveK ports d) k = (dget d k).map (resolve ports) := by
  induction d with
  | nil => rfl
  | cons x d ih =>
    obtain ⟨k', v⟩ := x
    rw [resolveK, List.map_cons, dget_cons, dget_cons, ← resolveK]
    by_cases h : k' = k
    · simp [h]
    · simp [h, ih]

theorem resolve_var (ports : Table) (a : Args) (p : Nat) (hp : dget ports (portName a "port".toList) = some p) :
    resolve ports (.str (portVar a)) = .int p := by
  simp only [resolve, portVar, lookup, hp]

theorem resolve_plain (ports : Table) (s : Str) (hs : s.head? ≠ some '$') : resolve ports (.str s) = .str s := by
  have : lookup ports s = none := by
    unfold lookup
    split
    · simp at hs
    · rfl
  simp only [resolve, this]

theorem resolve_addr (ports : Table) (a : Args) (p : Nat) (hp : dget ports (portName a "port".toList) = some p) (s : Str)
    (hs : s.head? ≠ some '$') : resolve ports (.list [.str s, .str (portVar a)]) = .list [.str s, .int p] := by
  rw [resolve, resolveL, resolveL, resolveL, resolve_var ports a p hp, resolve_plain ports s hs]

theorem fixTwo_ok (K1 K2 : Kw) (ne : K1 ≠ K2) (d : Kwargs) (h : ∀ v, dget d K1 = some v → ∃ l, v = .list l)
    (h' : ∀ v, dget d K2 = some v → ∃ l, v = .list l) :
    ∃ d', ((fixKey d K1).bind fun d => fixKey d K2) = .ok d' ∧ ∀ k, dget d' k = (dget d k).map (fun v =>
      if k = K1 ∨ k = K2 then (match v with | .list l => .tup l | v => v) else v) := by
  have s1 : ∀ (d : Kwargs) (key : Kw), (∀ v, dget d key = some v → ∃ l, v = .list l) →
      ∃ d', fixKey d key = .ok d' ∧
        ∀ k, dget d' k = (dget d k).map (fun v => if k = key then (match v with | .list l => .tup l | v => v) else v) := by
    intro d key hl
    obtain hk | ⟨v, hk⟩ := Option.eq_none_or_eq_some (dget d key)
    · refine ⟨d, by rw [fixKey, hk], ?_⟩
      intro k
      by_cases e : k = key
      · subst e; rw [hk]; rfl
      · simp [e]
    · obtain ⟨l, rfl⟩ := hl v hk
      refine ⟨dset d key (.tup l), by rw [fixKey, hk]; rfl, ?_⟩
      intro k
      rw [dget_dset]
      by_cases e : k = key
      · subst e; rw [hk]; simp
      · rw [if_neg (fun e' => e e'.symm)]; simp [e]
  obtain ⟨d1, e1, g1⟩ := s1 d K1 h
  obtain ⟨d2, e2, g2⟩ := s1 d1 K2 (by
    intro v hv
    rw [g1] at hv
    simp only [if_neg ne.symm] at hv
    obtain ⟨w, hw, e⟩ := Option.map_eq_some_iff.mp hv
    subst e
    exact h' w hw)
  refine ⟨d2, ?_, ?_⟩
  · rw [e1]
    exact e2
  · intro k
    rw [g2, g1, Option.map_map]
    congr 1
    funext v
    simp only [Function.comp]
    by_cases a : k = K1
    · subst a
      simp only [if_neg ne, if_true, true_or]
    · by_cases b : k = K2
      · subst b
        simp only [if_neg ne.symm, if_true, or_true]
      · simp only [if_neg a, if_neg b, if_neg (not_or.mpr ⟨a, b⟩)]

theorem fixKwargs_ok (d : Kwargs) (h : ∀ v, dget d .localAddr = some v → ∃ l, v = .list l)
    (h' : ∀ v, dget d .remoteAddr = some v → ∃ l, v = .list l) :
    ∃ d', fixKwargs d = .ok d' ∧ ∀ k, dget d' k = (dget d k).map (fun v =>
      if k = .localAddr ∨ k = .remoteAddr then (match v with | .list l => .tup l | v => v) else v) := by
  exact fixTwo_ok _ _ (by decide) d h h'

/-- `runtimepy server` over TCP: its server listens on the host and port asked for and the loopback, unless it is a
websocket, connects to that port; the port is the one the name of the configuration's only port stands for. -/
theorem C85_tcp (os : Os) (hos : os.Sane) (a : Args) (hu : a.udp = false) (hw : isWebsocket a = false) (hl : a.loopback = true)
    (hh : a.host.head? ≠ some '$') (t : Table) (l' : List PortItem) (h : assign os [] 0 (configData a).ports [] = .ok (t, l')) :
    ∃ p : Nat, p ≠ 0 ∧ (a.port ≠ 0 → p = a.port) ∧
      (∃ s, (configData a).servers = [s] ∧ s.factory = a.factory ∧
        dget (serverCall t s).2 .port = some (.int p) ∧ dget (serverCall t s).2 .host = some (.str a.host)) ∧
      (∃ c, (configData a).clients = [c] ∧ c.factory = a.factory ∧
        clientCall t c = .ok ([], [(.host, .str "localhost".toList), (.port, .int p)])) := by
  obtain ⟨-, k2, k3, -⟩ := C85_ports os hos [] _ t l' h
  obtain ⟨p, hp1, hp2, -, hp3⟩ := k2 0 _ rfl
  have hlen := (C85_ports os hos [] _ t l' h).1
  have hd : dget t (portName a "port".toList) = some p := by
    match l', hlen with
    | [x], _ =>
      simp only [List.getElem?_cons_zero, Option.some.injEq] at hp1
      subst hp1
      rw [k3]
      simp
  refine ⟨p, hp2, hp3 rfl, ?_, ?_⟩
  · refine ⟨serverData a, by simp [configData, hu], rfl, ?_, ?_⟩
    · simp only [serverCall, dget_resolveK, serverData]
      rw [dget_getKwargs _ _ _ (by decide), dget_cons, if_pos rfl]
      simp only [Option.map, resolve_var t a p hd]
    · simp only [serverCall, dget_resolveK, serverData]
      rw [dget_getKwargs _ _ _ (by decide), dget_cons, if_neg (by simp), dget_cons, if_pos rfl]
      simp only [Option.map, resolve_plain t a.host hh]
  · refine ⟨clientData a, by simp [configData, hu, hl], ?_, ?_⟩
    · simp [clientData, hw, hu]
    · have e : clientData a = ⟨portName a "client".toList, a.factory, [], [(.host, .str "localhost".toList), (.port, .str (portVar a))]⟩ := by
        simp [clientData, hw, hu]
      rw [e, clientCall]
      have e2 : resolveK t [(.host, V.str "localhost".toList), (Kw.port, .str (portVar a))] =
          [(.host, .str "localhost".toList), (.port, .int p)] := by
        simp only [resolveK, List.map_cons, List.map_nil, resolve_var t a p hd, resolve_plain t "localhost".toList (by decide)]
      dsimp only
      rw [e2]
      rfl

/-- Over UDP: the listening connection is bound to that port on all interfaces and the loopback sends to it. -/
theorem C85_udp (os : Os) (hos : os.Sane) (a : Args) (hu : a.udp = true) (hw : isWebsocket a = false) (hl : a.loopback = true)
    (t : Table) (l' : List PortItem) (h : assign os [] 0 (configData a).ports [] = .ok (t, l')) :
    ∃ p : Nat, p ≠ 0 ∧ (a.port ≠ 0 → p = a.port) ∧ (configData a).servers = [] ∧
      ∃ c d kw, (configData a).clients = [c, d] ∧ c.factory = a.factory ∧ d.factory = a.factory ∧ c.name ≠ d.name ∧
        clientCall t c = .ok ([], kw) ∧ dget kw .localAddr = some (.tup [.str "0.0.0.0".toList, .int p]) ∧
        dget kw .remoteAddr = none ∧
        clientCall t d = .ok ([], [(.remoteAddr, .tup [.str "localhost".toList, .int p])]) := by
  obtain ⟨-, k2, k3, -⟩ := C85_ports os hos [] _ t l' h
  obtain ⟨p, hp1, hp2, -, hp3⟩ := k2 0 _ rfl
  have hlen := (C85_ports os hos [] _ t l' h).1
  have hd : dget t (portName a "port".toList) = some p := by
    match l', hlen with
    | [x], _ =>
      simp only [List.getElem?_cons_zero, Option.some.injEq] at hp1
      subst hp1
      rw [k3]
      simp
  have g1 : dget (resolveK t (getKwargs a [(.localAddr, .list [.str "0.0.0.0".toList, .str (portVar a)])])) .localAddr
      = some (.list [.str "0.0.0.0".toList, .int p]) := by
    rw [dget_resolveK, dget_getKwargs _ _ _ (by decide), dget_cons, if_pos rfl]
    rw [Option.map_some, resolve_addr t a p hd _ (by decide)]
  have g2 : dget (resolveK t (getKwargs a [(.localAddr, .list [.str "0.0.0.0".toList, .str (portVar a)])])) .remoteAddr
      = none := by
    rw [dget_resolveK, dget_getKwargs _ _ _ (by decide), dget_cons, if_neg (by simp)]
    rfl
  obtain ⟨kw, hkw, gk⟩ := fixKwargs_ok _ (fun v hv => ⟨_, (Option.some.inj (g1.symm.trans hv)).symm⟩)
    (fun v hv => by rw [g2] at hv; cases hv)
  refine ⟨p, hp2, hp3 rfl, by simp [configData, hu], ?_⟩
  refine ⟨⟨portName a "server".toList, a.factory, [], getKwargs a [(.localAddr, .list [.str "0.0.0.0".toList, .str (portVar a)])]⟩,
    clientData a, kw, by simp [configData, hu, hl], rfl, by simp [clientData, hw, hu], ?_, ?_, ?_, ?_, ?_⟩
  · simp [clientData, hw, hu, portName]
  · rw [clientCall]
    dsimp only
    rw [hkw]
    rfl
  · rw [gk, g1]; simp
  · rw [gk, g2]; rfl
  · have e : clientData a = ⟨portName a "client".toList, a.factory, [], [(.remoteAddr, .list [.str "localhost".toList, .str (portVar a)])]⟩ := by
      simp [clientData, hw, hu]
    rw [e, clientCall]
    have e2 : resolveK t [(.remoteAddr, V.list [.str "localhost".toList, .str (portVar a)])] =
        [(.remoteAddr, .list [.str "localhost".toList, .int p])] := by
      rw [resolveK, List.map_cons, List.map_nil, resolve_addr t a p hd _ (by decide)]
    dsimp only
    rw [e2]
    rfl

/-- A websocket's loopback connects to that port, securely if the server was given a certificate. -/
theorem C85_websocket (os : Os) (hos : os.Sane) (a : Args) (hw : isWebsocket a = true) (hc : ':' ∉ a.factory)
    (t : Table) (l' : List PortItem) (h : assign os [] 0 (configData a).ports [] = .ok (t, l')) :
    ∃ p : Nat, p ≠ 0 ∧ (a.port ≠ 0 → p = a.port) ∧
      clientCall t (clientData a) = .ok ([.str ((if (a.cafile.or (a.capath.or (a.cadata.or a.certfile))).isSome then "wss".toList
        else "ws".toList) ++ "://localhost:".toList ++ Nat.toDigits 10 p)], []) := by
  obtain ⟨-, k2, k3, -⟩ := C85_ports os hos [] _ t l' h
  obtain ⟨p, hp1, hp2, -, hp3⟩ := k2 0 _ rfl
  have hlen := (C85_ports os hos [] _ t l' h).1
  have hd : dget t (portName a "port".toList) = some p := by
    match l', hlen with
    | [x], _ =>
      simp only [List.getElem?_cons_zero, Option.some.injEq] at hp1
      subst hp1
      rw [k3]
      simp
  have hs : isSsl (getKwargs a []) = (a.cafile.or (a.capath.or (a.cadata.or a.certfile))).isSome := by
    obtain ⟨_, _, _, _, _, f1, f2, f3, f4, f5⟩ := a
    cases f1 <;> cases f2 <;> cases f3 <;> cases f4 <;> cases f5 <;> rfl
  refine ⟨p, hp2, hp3 rfl, ?_⟩
  have e : clientData a = ⟨portName a "client".toList, a.factory, [.str ((if isSsl (getKwargs a []) then "wss".toList else "ws".toList)
      ++ "://localhost:".toList ++ portVar a)], []⟩ := by simp [clientData, hw]
  rw [e, clientCall]
  obtain ⟨t1, t2, _, t4⟩ := C85_text t
  have hn : ':' ∉ portName a "port".toList := by
    unfold portName
    cases a.udp <;> simp [hc]
  have key : ∀ pre : Str, pre.head? ≠ some '$' → '$' ∉ pre → (resolveL t [.str (pre ++ ':' :: "//localhost".toList ++ ':' :: portVar a)]).map (fixArg t)
      = [.str (pre ++ ':' :: "//localhost".toList ++ ':' :: Nat.toDigits 10 p)] := by
    intro pre hpre hpre2
    have : resolve t (.str (pre ++ ':' :: "//localhost".toList ++ ':' :: portVar a)) = .str (pre ++ ':' :: "//localhost".toList ++ ':' :: portVar a) := by
      apply resolve_plain
      cases pre with
      | nil => simp
      | cons c pre => exact hpre
    simp only [resolveL, this, List.map_cons, List.map_nil, fixArg]
    rw [t1, t1, t4 pre hpre2, t4 "//localhost".toList (by decide), portVar, t2 _ p hn hd]
  dsimp only
  rw [hs]
  cases hb : (a.cafile.or (a.capath.or (a.cadata.or a.certfile))).isSome with
  | true =>
    have := key "wss".toList (by decide) (by decide)
    have e3 : fixKwargs (resolveK t []) = .ok [] := rfl
    rw [e3]
    simp only [Except.map]
    simp only [if_true]
    exact congrArg (fun x => Except.ok (x, [])) this
  | false =>
    have := key "ws".toList (by decide) (by decide)
    have e3 : fixKwargs (resolveK t []) = .ok [] := rfl
    rw [e3]
    simp only [Except.map]
    simp only [Bool.false_eq_true, if_false]
    exact congrArg (fun x => Except.ok (x, [])) this

/-- The host is ignored for UDP. -/
theorem C85_host_fails (a : Args) (hu : a.udp = true) (host : Str) :
    configData { a with host := host } = configData a := by
  cases a
  simp only at hu
  subst hu
  rfl

/-- A TCP server with a certificate gets a loopback that knows nothing of it. -/
theorem C85_tls_fails (a : Args) (hw : isWebsocket a = false) (cert key : Str) :
    clientData { a with certfile := some cert, keyfile := some key } = clientData a ∧
    isSsl (serverData { a with certfile := some cert, keyfile := some key }).kwargs = true := by
  have hw' : isWebsocket { a with certfile := some cert, keyfile := some key } = false := hw
  refine ⟨?_, ?_⟩
  · unfold clientData
    rw [hw, hw']
    rfl
  · have key : ∀ (l : Kwargs) (k : Kw) (d : Kwargs), ((dget d k).isSome = true ∨ ∃ v, (k, v) ∈ l) →
        (dget (l.foldl (fun d p => dset d p.1 p.2) d) k).isSome = true := by
      intro l k
      induction l with
      | nil =>
        rintro d (h | ⟨v, h⟩)
        · exact h
        · cases h
      | cons p l ih =>
        intro d h
        rw [List.foldl_cons]
        apply ih
        by_cases e : p.1 = k
        · left; rw [dget_dset, if_pos e]; rfl
        · rcases h with h | ⟨v, h⟩
          · left; rw [dget_dset, if_neg e]; exact h
          · right
            rcases List.mem_cons.mp h with h | h
            · rw [← h] at e; exact absurd rfl e
            · exact ⟨v, h⟩
    rw [isSsl, List.any_eq_true]
    refine ⟨.certfile, by simp, ?_⟩
    apply key
    right
    refine ⟨.str cert, ?_⟩
    rw [passed, List.mem_filterMap]
    exact ⟨(.certfile, some cert), by simp, rfl⟩

def sampleOs : Os := fun i _ _ p => .ok (if p = 0 then 40000 + i else p)

theorem C85_cases :
    sampleOs.Sane ∧
    (assign sampleOs [("b".toList, 80)] 0 [⟨"a".toList, false, [], 0⟩, ⟨"b".toList, true, [], 5⟩, ⟨"c".toList, true, [], 7⟩] []).map (·.1)
      = .ok [("a".toList, 40000), ("b".toList, 80), ("c".toList, 7)] ∧
    fixText [("p".toList, 80)] "ws://localhost:$p".toList = "ws://localhost:80".toList ∧
    fixText [("p".toList, 80)] "ws://localhost:$p/x".toList = "ws://localhost:$p/x".toList ∧
    isWebsocket ⟨"runtimepy_WebSocket_json".toList, [], 0, false, true, none, none, none, none, none⟩ = true ∧
    isWebsocket ⟨"tcp_null".toList, [], 0, false, true, none, none, none, none, none⟩ = false := by
  refine ⟨?_, by decide +kernel, by decide +kernel, by decide +kernel, by decide +kernel, by decide +kernel⟩
  intro i u h p q hq
  simp only [sampleOs, Except.ok.injEq] at hq
  subst hq
  split
  · exact ⟨by omega, fun h => absurd ‹p = 0› h⟩
  · exact ⟨‹_›, fun _ => rfl⟩

end Verif.Arbiter.Ports
