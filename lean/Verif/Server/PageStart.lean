import Verif.Server.Pages
/-!
C112: a page finds its connections and starts: `data/js/util.js` 1–32 (`worker_config`), `data/js/worker.js` 1–13 and
35–88 (`create_connections`, `start`), `data/js/classes/JsonConnection.js` 8–30 and 92–111, `data/js/classes/App.js`
14–64 (`main`).

The two threads of a page are the main thread and the worker; messages between them are queues. Simplifications: host
names are texts and ports numbers, an URL is its parts; the tabs' initialisation does not wait for anything (no
script of the package does), so the main thread's first handler is one step; of a message for the tabs only its keys
are kept; the frames of `render` are C109's.
-/
namespace Verif.PageStart
open Verif.Pages (Str)

/-! ### The ports -/

/-- An entry of `ports`. -/
structure Port where
  name : Str
  port : Nat
deriving DecidableEq

/-- `ws://host:port` or `wss://host:port`. -/
structure Url where
  secure : Bool
  host : Str
  port : Nat
deriving DecidableEq

def kPlain : Str := "runtimepy_websocket".toList
def kSecure : Str := "runtimepy_secure_websocket".toList
def kData : Str := "data".toList

/-- `a.includes(b)`. -/
def includes : Str → Str → Bool
  | [], b => b.isEmpty
  | c :: cs, b => b.isPrefixOf (c :: cs) || includes cs b

/-- The address of the two connections, util.js 2. -/
structure Config where
  json : Option Url := none
  data : Option Url := none

/-- Lines 14–29, one port. -/
def Config.add (https : Bool) (host : Str) (c : Config) (p : Port) : Config :=
  if includes p.name (if https then kSecure else kPlain) then
    if includes p.name kData then { c with data := some ⟨https, host, p.port⟩ }
    else { c with json := some ⟨https, host, p.port⟩ }
  else c

/-- `worker_config`: the name of the host is the configuration's unless it is missing or empty, 18–19. -/
def workerConfig (https : Bool) (configured location : Str) (ports : List Port) : Config :=
  ports.foldl (Config.add https (if configured = [] then location else configured)) {}

/-- The last port that a test accepts. -/
def LastOf (t : Port → Prop) (ports : List Port) (p : Port) : Prop :=
  ∃ a b, ports = a ++ p :: b ∧ t p ∧ ∀ q ∈ b, ¬ t q

/-- A port for the scheme. -/
def Fits (https : Bool) (p : Port) : Prop := (if https then kSecure else kPlain) <:+: p.name

theorem includes_iff (a b : Str) : includes a b = true ↔ b <:+: a := by
  induction a with
  | nil => simp [includes]
  | cons c cs ih => rw [includes, Bool.or_eq_true, ih, List.infix_cons_iff, List.isPrefixOf_iff_prefix]

instance (https : Bool) (p : Port) : Decidable (Fits https p) := by unfold Fits; infer_instance

theorem add_json (https : Bool) (host : Str) (c : Config) (p : Port) :
    (c.add https host p).json = if Fits https p ∧ ¬ kData <:+: p.name then some ⟨https, host, p.port⟩ else c.json := by
  unfold Config.add
  by_cases h1 : Fits https p
  · rw [if_pos ((includes_iff _ _).mpr h1)]
    by_cases h2 : kData <:+: p.name
    · rw [if_pos ((includes_iff _ _).mpr h2), if_neg (by simp [h2])]
    · rw [if_neg (by rw [includes_iff]; exact h2), if_pos ⟨h1, h2⟩]
  · rw [if_neg (by rw [includes_iff]; exact h1), if_neg (by simp [h1])]

theorem add_data (https : Bool) (host : Str) (c : Config) (p : Port) :
    (c.add https host p).data = if Fits https p ∧ kData <:+: p.name then some ⟨https, host, p.port⟩ else c.data := by
  unfold Config.add
  by_cases h1 : Fits https p
  · rw [if_pos ((includes_iff _ _).mpr h1)]
    by_cases h2 : kData <:+: p.name
    · rw [if_pos ((includes_iff _ _).mpr h2), if_pos ⟨h1, h2⟩]
    · rw [if_neg (by rw [includes_iff]; exact h2), if_neg (by simp [h2])]
  · rw [if_neg (by rw [includes_iff]; exact h1), if_neg (by simp [h1])]

/-- A field that takes every port a test accepts, in turn. -/
theorem fold_last {α : Type} (f : α → Option Url) (g : α → Port → α) (t : Port → Prop) [DecidablePred t] (u : Port → Url)
    (hg : ∀ a p, f (g a p) = if t p then some (u p) else f a) (ports : List Port) (a : α) :
    (∀ p, LastOf t ports p → f (ports.foldl g a) = some (u p)) ∧
    ((∀ p ∈ ports, ¬ t p) → f (ports.foldl g a) = f a) := by
  have none' : ∀ (l : List Port) (a : α), (∀ p ∈ l, ¬ t p) → f (l.foldl g a) = f a := by
    intro l
    induction l with
    | nil => intro a _; rfl
    | cons p l ih =>
      intro a h
      rw [List.foldl_cons, ih _ (fun q hq => h q (by simp [hq])), hg, if_neg (h p (by simp))]
  refine ⟨?_, none' ports a⟩
  rintro p ⟨x, y, rfl, ht, hy⟩
  rw [List.foldl_append, List.foldl_cons, none' y _ hy, hg, if_pos ht]

/-- C112: each connection goes to the last port whose name is one for the page's scheme and has, or has not, `data` in
it; on the configured host, or the page's own; and nowhere if there is no such port. -/
theorem C112_ports (https : Bool) (configured location : Str) (ports : List Port) :
    let c := workerConfig https configured location ports
    let host := if configured = [] then location else configured
    (∀ p, LastOf (fun p => Fits https p ∧ ¬ kData <:+: p.name) ports p → c.json = some ⟨https, host, p.port⟩) ∧
    (∀ p, LastOf (fun p => Fits https p ∧ kData <:+: p.name) ports p → c.data = some ⟨https, host, p.port⟩) ∧
    ((∀ p ∈ ports, ¬ (Fits https p ∧ ¬ kData <:+: p.name)) → c.json = none) ∧
    ((∀ p ∈ ports, ¬ (Fits https p ∧ kData <:+: p.name)) → c.data = none) := by
  intro c host
  have a := fold_last Config.json (Config.add https host) (fun p => Fits https p ∧ ¬ kData <:+: p.name)
    (fun p => ⟨https, host, p.port⟩) (fun c p => by rw [add_json]) ports {}
  have b := fold_last Config.data (Config.add https host) (fun p => Fits https p ∧ kData <:+: p.name)
    (fun p => ⟨https, host, p.port⟩) (fun c p => by rw [add_data]) ports {}
  exact ⟨a.1, b.1, a.2, b.2⟩

/-- C112: with one websocket server of either kind for the page's scheme, as in the package's configurations, each
connection goes to its own, whatever the order and the other ports. -/
theorem C112_unique (https : Bool) (configured location : Str) (ports : List Port) (j d : Port) (hj : j ∈ ports)
    (hd : d ∈ ports) (fj : Fits https j) (nj : ¬ kData <:+: j.name) (fd : Fits https d) (nd : kData <:+: d.name)
    (only : ∀ p ∈ ports, Fits https p → p = j ∨ p = d) :
    let c := workerConfig https configured location ports
    c.json.map Url.port = some j.port ∧ c.data.map Url.port = some d.port := by
  intro c
  obtain ⟨a, b, -, -⟩ := C112_ports https configured location ports
  have last : ∀ (t : Port → Prop) (p : Port), p ∈ ports → t p → (∀ q ∈ ports, t q → q = p) → LastOf t ports p := by
    intro t p hp tp ho
    obtain ⟨x, y, e, hx⟩ := List.eq_append_cons_of_mem (List.mem_reverse.mpr hp)
    refine ⟨y.reverse, x.reverse, ?_, tp, ?_⟩
    · rw [← List.reverse_reverse ports, e]; simp
    · intro q hq tq
      have hq' : q ∈ x := List.mem_reverse.mp hq
      have : q = p := ho q (by rw [← List.mem_reverse, e]; simp [hq']) tq
      rw [this] at hq'
      exact hx hq'
  constructor
  · rw [a j (last _ j hj ⟨fj, nj⟩ ?_)]; · rfl
    rintro q hq ⟨f, n⟩
    rcases only q hq f with rfl | rfl
    · rfl
    · exact absurd nd n
  · rw [b d (last _ d hd ⟨fd, nd⟩ ?_)]; · rfl
    rintro q hq ⟨f, n⟩
    rcases only q hq f with rfl | rfl
    · exact absurd n nj
    · rfl

/-- C112: a websocket server with `data` anywhere in its name, such as that of a database, is never the one for
messages, and with it as the only one a page has nobody to talk to. -/
theorem C112_data_fails (https : Bool) (configured location : Str) (ports : List Port)
    (h : ∀ p ∈ ports, Fits https p → kData <:+: p.name) :
    (workerConfig https configured location ports).json = none :=
  (C112_ports https configured location ports).2.2.1 (fun p hp ⟨f, n⟩ => n (h p hp f))

/-- C112: a page that came over https uses only ports with the secure name, so with the package's own configuration it
has neither connection. -/
theorem C112_https_fails (configured location : Str) (ports : List Port) (h : ∀ p ∈ ports, ¬ kSecure <:+: p.name) :
    (workerConfig true configured location ports).json = none ∧
    (workerConfig true configured location ports).data = none :=
  ⟨(C112_ports true configured location ports).2.2.1 (fun p hp ⟨f, _⟩ => h p hp f),
   (C112_ports true configured location ports).2.2.2 (fun p hp ⟨f, _⟩ => h p hp f)⟩

/-! ### The two threads -/

/-- A promise. -/
inductive Promise where
  | pending | resolved | rejected
deriving DecidableEq

/-- A connection: `connected`, and whether it was closed. -/
structure Sock where
  prom : Promise := .pending
  closed : Bool := false
deriving DecidableEq

/-- What the worker posts: `0`, `{reload: true}` or a message for tabs (its keys). -/
inductive Msg where
  | zero
  | reload
  | ui (keys : List Str)
deriving DecidableEq

/-- The worker, in `start`. -/
inductive Phase where
  | waitJson | waitData | ready
  /-- an exception -/
  | dead
deriving DecidableEq

/-- The main thread: its first handler waits for a message (once), has seen another than `0`, or has set the other
handler. -/
inductive Main where
  | waiting | missed | running
deriving DecidableEq

structure St where
  json : Sock := {}
  data : Sock := {}
  phase : Phase
  toMain : List Msg := []
  main : Main := .waiting
  reloads : Nat := 0
  got : List (List Str) := []

def kReload : Str := "reload".toList

/-- Without an address, `new WebSocket` raises. -/
def St.init (c : Config) : St := { phase := if c.json.isSome ∧ c.data.isSome then .waitJson else .dead }

inductive Ev where
  /-- `onopen` of the messages' or the data connection -/
  | opened (data : Bool)
  | closed (data : Bool)
  /-- the worker goes on after an `await` -/
  | work
  /-- the main thread takes a message -/
  | main
  /-- a message for the tabs from the server -/
  | ui (keys : List Str)

def Sock.open' (s : Sock) : Sock :=
  if s.prom = .pending ∧ s.closed = false then { s with prom := .resolved } else s

/-- `onclose`, once: the promise is rejected unless it is settled. -/
def Sock.close (s : Sock) : Sock := ⟨if s.prom = .pending then .rejected else s.prom, true⟩

def St.sock (s : St) (data : Bool) : Sock := if data then s.data else s.json

def St.setSock (s : St) (data : Bool) (k : Sock) : St := if data then { s with data := k } else { s with json := k }

/-- worker.js 41–44, and 76–77 at the end. -/
def St.work (s : St) : St :=
  match s.phase with
  | .waitJson =>
    match s.json.prom with
    | .pending => s
    | .resolved => { s with phase := .waitData }
    | .rejected => { s with phase := .dead }
  | .waitData =>
    match s.data.prom with
    | .pending => s
    | .resolved => { s with phase := .ready, toMain := s.toMain ++ [.zero] }
    | .rejected => { s with phase := .dead }
  | _ => s

/-- App.js 20–62 and, once that has run, 33–46. -/
def St.handle (s : St) (m : Msg) : St :=
  match s.main with
  | .waiting => { s with main := if m = .zero then .running else .missed }
  | .missed => s
  | .running =>
    match m with
    | .zero => s
    | .reload => { s with reloads := s.reloads + 1 }
    | .ui keys => { s with reloads := if kReload ∈ keys then s.reloads + 1 else s.reloads, got := s.got ++ [keys] }

def St.step (s : St) : Ev → St
  | .opened d => s.setSock d (s.sock d).open'
  | .closed d =>
    if (s.sock d).closed then s
    else { s.setSock d (s.sock d).close with toMain := s.toMain ++ [.reload] }
  | .work => s.work
  | .main =>
    match s.toMain with
    | [] => s
    | m :: ms => ({ s with toMain := ms }).handle m
  | .ui keys =>
    if s.json.prom = .resolved ∧ s.json.closed = false ∧ s.phase = .ready then
      { s with toMain := s.toMain ++ [.ui keys] }
    else s

def St.run (s : St) (es : List Ev) : St := es.foldl St.step s

theorem run_nil (s : St) : s.run [] = s := rfl
theorem run_cons (s : St) (e : Ev) (es : List Ev) : s.run (e :: es) = (s.step e).run es := rfl
theorem run_append (s : St) (a b : List Ev) : s.run (a ++ b) = (s.run a).run b := by simp [St.run]

/-- What always holds. -/
structure Inv (s : St) : Prop where
  data : s.phase = .waitData → s.json.prom = .resolved
  ready : s.phase = .ready → s.json.prom = .resolved ∧ s.data.prom = .resolved
  zero : Msg.zero ∈ s.toMain → s.phase = .ready
  running : s.main = .running → s.phase = .ready
  calm : s.main ≠ .running → s.reloads = 0 ∧ s.got = []

theorem sock_open (k : Sock) (h : k.prom = .resolved) : k.open'.prom = .resolved := by
  unfold Sock.open'; split <;> simp [h]

theorem sock_close (k : Sock) (h : k.prom = .resolved) : k.close.prom = .resolved := by
  unfold Sock.close; simp [h]

theorem inv_init (c : Config) : Inv (St.init c) := by
  unfold St.init
  constructor <;> intro h <;> simp at h ⊢ <;> first | (split at h <;> simp at h) | skip

theorem inv_step {s : St} (h : Inv s) (e : Ev) : Inv (s.step e) := by
  obtain ⟨h1, h2, h3, h4, h5⟩ := h
  cases e with
  | opened d =>
    cases d <;> simp only [St.step, St.setSock, St.sock, if_true, if_false, Bool.false_eq_true]
    · exact ⟨fun a => sock_open _ (h1 a), fun a => ⟨sock_open _ (h2 a).1, (h2 a).2⟩, h3, h4, h5⟩
    · exact ⟨h1, fun a => ⟨(h2 a).1, sock_open _ (h2 a).2⟩, h3, h4, h5⟩
  | closed d =>
    simp only [St.step]
    split
    · exact ⟨h1, h2, h3, h4, h5⟩
    · cases d <;> simp only [St.setSock, St.sock, if_true, if_false, Bool.false_eq_true]
      · exact ⟨fun a => sock_close _ (h1 a), fun a => ⟨sock_close _ (h2 a).1, (h2 a).2⟩,
          fun a => h3 (by simpa using a), h4, h5⟩
      · exact ⟨h1, fun a => ⟨(h2 a).1, sock_close _ (h2 a).2⟩, fun a => h3 (by simpa using a), h4, h5⟩
  | work =>
    simp only [St.step, St.work]
    cases hp : s.phase with
    | waitJson =>
      cases hj : s.json.prom <;> simp only
      · exact ⟨h1, h2, h3, h4, h5⟩
      · refine ⟨fun _ => hj, fun a => by simp at a, fun a => ?_, fun a => ?_, h5⟩
        · have := h3 a; rw [hp] at this; cases this
        · have := h4 a; rw [hp] at this; cases this
      · refine ⟨fun a => by simp at a, fun a => by simp at a, fun a => ?_, fun a => ?_, h5⟩
        · have := h3 a; rw [hp] at this; cases this
        · have := h4 a; rw [hp] at this; cases this
    | waitData =>
      cases hd : s.data.prom <;> simp only
      · exact ⟨h1, h2, h3, h4, h5⟩
      · exact ⟨fun a => by simp at a, fun _ => ⟨h1 hp, hd⟩, fun _ => rfl, fun _ => rfl, h5⟩
      · refine ⟨fun a => by simp at a, fun a => by simp at a, fun a => ?_, fun a => ?_, h5⟩
        · have := h3 a; rw [hp] at this; cases this
        · have := h4 a; rw [hp] at this; cases this
    | ready => exact ⟨h1, h2, h3, h4, h5⟩
    | dead => exact ⟨h1, h2, h3, h4, h5⟩
  | main =>
    simp only [St.step]
    cases hm : s.toMain with
    | nil => exact ⟨h1, h2, h3, h4, h5⟩
    | cons m ms =>
      simp only [St.handle]
      cases hmain : s.main with
      | waiting =>
        refine ⟨h1, h2, fun a => h3 (by rw [hm]; simp [show Msg.zero ∈ ms from a]), fun a => ?_, fun _ => h5 (by rw [hmain]; simp)⟩
        by_cases hz : m = .zero
        · exact h3 (by rw [hm, hz]; simp)
        · simp [hz] at a
      | missed =>
        exact ⟨h1, h2, fun a => h3 (by rw [hm]; simp [show Msg.zero ∈ ms from a]), fun a => by simp at a,
          fun _ => h5 (by rw [hmain]; simp)⟩
      | running =>
        have hz : Msg.zero ∈ ms → s.phase = .ready := fun a => h3 (by rw [hm]; simp [a])
        cases m <;> exact ⟨h1, h2, hz, fun _ => h4 hmain, fun a => absurd rfl a⟩
  | ui keys =>
    simp only [St.step]
    split
    · exact ⟨h1, h2, fun a => h3 (by simpa using a), h4, h5⟩
    · exact ⟨h1, h2, h3, h4, h5⟩

theorem inv_run (s : St) (h : Inv s) (es : List Ev) : Inv (s.run es) := by
  induction es generalizing s with
  | nil => exact h
  | cons e es ih => exact ih _ (inv_step h e)

/-- C112: a page runs only after both connections were opened, so never without the addresses of both. -/
theorem C112_opened (c : Config) (es : List Ev) (h : ((St.init c).run es).main = .running) :
    ((St.init c).run es).json.prom = .resolved ∧ ((St.init c).run es).data.prom = .resolved ∧
    c.json.isSome ∧ c.data.isSome := by
  have i := inv_run _ (inv_init c) es
  obtain ⟨a, b⟩ := i.ready (i.running h)
  refine ⟨a, b, ?_⟩
  refine Classical.byContradiction fun hc => ?_
  have dead : ∀ (es : List Ev) (s : St), s.phase = .dead → (s.run es).phase = .dead := by
    intro es
    induction es with
    | nil => intro s h; exact h
    | cons e es ih =>
      intro s h
      apply ih
      cases e with
      | opened d => cases d <;> exact h
      | closed d => simp only [St.step]; split; · exact h
                    · cases d <;> exact h
      | work => simp only [St.step, St.work, h]
      | main =>
        simp only [St.step]; split; · exact h
        · simp only [St.handle]; split <;> first | exact h | (split <;> exact h)
      | ui k => simp only [St.step]; split <;> exact h
  have := dead es (St.init c) (by unfold St.init; rw [if_neg hc])
  rw [i.running h] at this
  cases this

def NoClose (es : List Ev) : Prop := ∀ d, Ev.closed d ∉ es

/-- Before a close: nothing but `0`, first, and messages for tabs are posted. -/
structure Calm (s : St) : Prop where
  phase : s.phase ≠ .dead
  json : s.json.closed = false ∧ s.json.prom ≠ .rejected
  data : s.data.closed = false ∧ s.data.prom ≠ .rejected
  early : s.phase ≠ .ready → s.toMain = [] ∧ s.main = .waiting
  late : s.phase = .ready → s.main = .running ∨ s.main = .waiting ∧ s.toMain.head? = some .zero
  noreload : Msg.reload ∉ s.toMain

theorem calm_step {s : St} (h : Calm s) (e : Ev) (he : ∀ d, e ≠ .closed d) : Calm (s.step e) := by
  obtain ⟨h1, h2, h3, h4, h5, h6⟩ := h
  have op : ∀ k : Sock, k.closed = false ∧ k.prom ≠ .rejected → k.open'.closed = false ∧ k.open'.prom ≠ .rejected := by
    intro k hk; unfold Sock.open'; split
    · exact ⟨hk.1, by simp⟩
    · exact hk
  cases e with
  | opened d =>
    cases d <;> simp only [St.step, St.setSock, St.sock, if_true, if_false, Bool.false_eq_true]
    · exact ⟨h1, op _ h2, h3, h4, h5, h6⟩
    · exact ⟨h1, h2, op _ h3, h4, h5, h6⟩
  | closed d => exact absurd rfl (he d)
  | work =>
    simp only [St.step, St.work]
    cases hp : s.phase with
    | waitJson =>
      have e := h4 (by rw [hp]; simp)
      cases hj : s.json.prom <;> simp only
      · exact ⟨h1, h2, h3, h4, h5, h6⟩
      · exact ⟨by simp, by rw [hj] at h2; simpa [hj] using h2, h3, fun _ => e, fun a => by simp at a, h6⟩
      · exact absurd hj h2.2
    | waitData =>
      have e := h4 (by rw [hp]; simp)
      cases hd : s.data.prom <;> simp only
      · exact ⟨h1, h2, h3, h4, h5, h6⟩
      · exact ⟨by simp, h2, by rw [hd] at h3; simpa [hd] using h3, fun a => by simp at a,
          fun _ => .inr ⟨e.2, by simp [e.1]⟩, by simp [e.1]⟩
      · exact absurd hd h3.2
    | ready => exact ⟨h1, h2, h3, h4, h5, h6⟩
    | dead => exact absurd hp h1
  | main =>
    simp only [St.step]
    cases hm : s.toMain with
    | nil => exact ⟨h1, h2, h3, h4, h5, h6⟩
    | cons m ms =>
      have hr : s.phase = .ready := by
        refine Classical.byContradiction fun hc => ?_
        have := (h4 hc).1
        rw [hm] at this; cases this
      have h6' : Msg.reload ∉ ms := fun a => h6 (by rw [hm]; simp [a])
      simp only [St.handle]
      cases hmain : s.main with
      | waiting =>
        rcases h5 hr with a | ⟨-, a⟩
        · rw [hmain] at a; cases a
        · rw [hm] at a
          simp only [List.head?_cons, Option.some.injEq] at a
          subst a
          exact ⟨h1, h2, h3, fun b => absurd hr b, fun _ => .inl rfl, h6'⟩
      | missed =>
        rcases h5 hr with a | ⟨a, -⟩ <;> (rw [hmain] at a; cases a)
      | running =>
        cases m <;> exact ⟨h1, h2, h3, fun b => absurd hr b, fun _ => .inl rfl, h6'⟩
  | ui keys =>
    simp only [St.step]
    split
    · next hc =>
      refine ⟨h1, h2, h3, fun a => absurd hc.2.2 a, fun a => ?_, by simp [h6]⟩
      rcases h5 a with b | ⟨b, c⟩
      · exact .inl b
      · exact .inr ⟨b, by simp only [List.head?_append, c, Option.some_or]⟩
    · exact ⟨h1, h2, h3, h4, h5, h6⟩

theorem calm_run (s : St) (h : Calm s) (es : List Ev) (hn : NoClose es) : Calm (s.run es) := by
  induction es generalizing s with
  | nil => exact h
  | cons e es ih =>
    exact ih _ (calm_step h e (fun d hd => hn d (by simp [hd]))) (fun d hd => hn d (by simp [hd]))

theorem calm_init (c : Config) (hj : c.json.isSome) (hd : c.data.isSome) : Calm (St.init c) := by
  unfold St.init
  rw [if_pos ⟨hj, hd⟩]
  exact ⟨by simp, by simp, by simp, fun _ => by simp, fun h => by simp at h, by simp⟩

/-- C112: if neither connection closes, a page starts: when both are open, the worker has gone on and the main thread
has taken a message, it runs. -/
theorem C112_starts (c : Config) (hj : c.json.isSome) (hd : c.data.isSome) (es : List Ev) (hn : NoClose es)
    (oj : ((St.init c).run es).json.prom = .resolved) (od : ((St.init c).run es).data.prom = .resolved) :
    ((St.init c).run (es ++ [.work, .work, .main])).main = .running := by
  have cm := calm_run _ (calm_init c hj hd) es hn
  rw [run_append]
  generalize (St.init c).run es = s at *
  have w : ∀ t : St, Calm t → t.json.prom = .resolved → t.data.prom = .resolved → t.phase = .ready →
      (t.step .main).main = .running := by
    intro t ht _ _ hr
    rcases ht.late hr with a | ⟨a, b⟩
    · simp only [St.step]
      cases hm : t.toMain with
      | nil => exact a
      | cons m ms => simp only [St.handle, a]; cases m <;> rfl
    · cases hm : t.toMain with
      | nil => rw [hm] at b; cases b
      | cons m ms =>
        rw [hm] at b
        simp only [List.head?_cons, Option.some.injEq] at b
        simp only [St.step, hm, St.handle, a, b, if_true]
  have k : ∀ t : St, t.step .work = t.work := fun _ => rfl
  have c1 : Calm (s.step .work) := calm_step cm _ (by simp)
  have c2 : Calm ((s.step .work).step .work) := calm_step c1 _ (by simp)
  simp only [run_cons, run_nil]
  have ready : ((s.step .work).step .work).phase = .ready ∧ ((s.step .work).step .work).json.prom = .resolved ∧
      ((s.step .work).step .work).data.prom = .resolved := by
    simp only [k]
    cases hp : s.phase with
    | waitJson => simp [St.work, hp, oj, od]
    | waitData => simp [St.work, hp, oj, od]
    | ready => simp [St.work, hp, oj, od]
    | dead => exact absurd hp cm.phase
  exact w _ c2 ready.2.1 ready.2.2 ready.1

/-- C112: a page is not reloaded for any other reason than a close, or a tab of that name. -/
theorem C112_quiet (c : Config) (es : List Ev) (hn : NoClose es)
    (hk : ∀ keys, Ev.ui keys ∈ es → kReload ∉ keys) : ((St.init c).run es).reloads = 0 := by
  have gen : ∀ (es : List Ev) (s : St), NoClose es → (∀ keys, Ev.ui keys ∈ es → kReload ∉ keys) →
      s.reloads = 0 → Msg.reload ∉ s.toMain → (∀ keys, Msg.ui keys ∈ s.toMain → kReload ∉ keys) →
      (s.run es).reloads = 0 := by
    intro es
    induction es with
    | nil => intro s _ _ h _ _; exact h
    | cons e es ih =>
      intro s hn hk h0 h1 h2
      have hn' : NoClose es := fun d hd => hn d (by simp [hd])
      have hk' : ∀ keys, Ev.ui keys ∈ es → kReload ∉ keys := fun k hm => hk k (by simp [hm])
      rw [run_cons]
      cases e with
      | opened d => cases d <;> exact ih _ hn' hk' h0 h1 h2
      | closed d => exact absurd (List.mem_cons_self ..) (hn d)
      | work =>
        refine ih _ hn' hk' ?_ ?_ ?_ <;> simp only [St.step, St.work] <;> split <;> (try split) <;> simp_all
      | main =>
        cases hm : s.toMain with
        | nil => simp only [St.step, hm]; exact ih _ hn' hk' h0 h1 h2
        | cons m ms =>
          have g1 : Msg.reload ∉ ms := fun a => h1 (by rw [hm]; simp [a])
          have g2 : ∀ keys, Msg.ui keys ∈ ms → kReload ∉ keys := fun k a => h2 k (by rw [hm]; simp [a])
          simp only [St.step, hm]
          refine ih _ hn' hk' ?_ ?_ ?_
          · simp only [St.handle]
            split
            · exact h0
            · exact h0
            · cases m with
              | zero => exact h0
              | reload => exact absurd (by rw [hm]; simp) h1
              | ui keys => simp only; rw [if_neg (h2 keys (by rw [hm]; simp))]; exact h0
          · simp only [St.handle]; split <;> first | exact g1 | (split <;> exact g1)
          · simp only [St.handle]; split <;> first | exact g2 | (split <;> exact g2)
      | ui keys =>
        simp only [St.step]
        split
        · refine ih _ hn' hk' h0 (by simpa using h1) ?_
          intro k a
          rcases List.mem_append.mp a with a | a
          · exact h2 k a
          · simp only [List.mem_singleton, Msg.ui.injEq] at a
            rw [a]
            exact hk keys (by simp)
        · exact ih _ hn' hk' h0 h1 h2
  exact gen es _ hn hk (by unfold St.init; rfl) (by simp [St.init]) (by simp [St.init])

/-! ### A running page -/

/-- The messages for tabs among some. -/
def uis : List Msg → List (List Str)
  | [] => []
  | .ui k :: ms => k :: uis ms
  | _ :: ms => uis ms

theorem uis_append (a b : List Msg) : uis (a ++ b) = uis a ++ uis b := by
  induction a with
  | nil => rfl
  | cons m a ih => cases m <;> simp [uis, ih]

/-- The messages for tabs among some events. -/
def sent : List Ev → List (List Str)
  | [] => []
  | .ui k :: es => k :: sent es
  | _ :: es => sent es

theorem handle_running (s : St) (m : Msg) (h : s.main = .running) :
    (s.handle m).main = .running ∧ (s.handle m).phase = s.phase ∧ (s.handle m).json = s.json ∧
    (s.handle m).got = s.got ++ uis [m] ∧ (s.handle m).toMain = s.toMain := by
  unfold St.handle
  rw [h]
  cases m <;> simp [uis, h]

/-- C112: once a page runs, every message for its tabs that arrives while the connection for messages is open gets to
the tabs, once and in order. -/
theorem C112_delivered (c : Config) (es fs : List Ev) (h : ((St.init c).run es).main = .running)
    (ho : ((St.init c).run es).json.closed = false) (hn : Ev.closed false ∉ fs) :
    ((St.init c).run (es ++ fs)).got ++ uis ((St.init c).run (es ++ fs)).toMain =
      ((St.init c).run es).got ++ uis ((St.init c).run es).toMain ++ sent fs := by
  have i := inv_run _ (inv_init c) es
  have hr := i.running h
  rw [run_append]
  generalize (St.init c).run es = s at *
  have gen : ∀ (fs : List Ev) (s : St), Ev.closed false ∉ fs → s.main = .running → s.phase = .ready →
      s.json.prom = .resolved → s.json.closed = false →
      (s.run fs).got ++ uis (s.run fs).toMain = s.got ++ uis s.toMain ++ sent fs := by
    intro fs
    induction fs with
    | nil => intro s _ _ _ _ _; simp [run_nil, sent]
    | cons e fs ih =>
      intro s hn hm hp hj hc
      have hn' : Ev.closed false ∉ fs := fun a => hn (by simp [a])
      rw [run_cons]
      cases e with
      | opened d =>
        cases d
        · refine (ih (s.step (.opened false)) hn' hm hp (sock_open _ hj) ?_).trans rfl
          show (s.json.open').closed = false
          unfold Sock.open'; rw [if_neg (by rw [hj]; simp)]; exact hc
        · exact (ih (s.step (.opened true)) hn' hm hp hj hc).trans rfl
      | closed d =>
        cases d
        · simp at hn
        · by_cases hd : s.data.closed = true
          · have e : s.step (.closed true) = s := by
              simp only [St.step, St.sock, if_true]; rw [if_pos hd]
            rw [e]
            exact (ih s hn' hm hp hj hc).trans rfl
          · have e : s.step (.closed true) = { s with data := s.data.close, toMain := s.toMain ++ [.reload] } := by
              simp only [St.step, St.sock, if_true]; rw [if_neg hd]; rfl
            rw [e]
            refine (ih { s with data := s.data.close, toMain := s.toMain ++ [.reload] } hn' hm hp hj hc).trans ?_
            simp [uis_append, uis, sent]
      | work =>
        have e : s.step .work = s := by simp only [St.step, St.work, hp]
        rw [e]
        exact (ih _ hn' hm hp hj hc).trans rfl
      | main =>
        cases hq : s.toMain with
        | nil =>
          have e : s.step .main = s := by simp only [St.step, hq]
          rw [e]
          refine (ih _ hn' hm hp hj hc).trans ?_
          rw [hq]; rfl
        | cons m ms =>
          have e : s.step .main = ({ s with toMain := ms }).handle m := by simp only [St.step, hq]
          rw [e]
          obtain ⟨f1, f2, f3, f4, f5⟩ := handle_running { s with toMain := ms } m hm
          refine (ih _ hn' f1 (f2.trans hp) (by rw [f3]; exact hj) (by rw [f3]; exact hc)).trans ?_
          rw [f4, f5]
          cases m <;> simp [uis, sent]
      | ui k =>
        have e : s.step (.ui k) = { s with toMain := s.toMain ++ [.ui k] } := by
          simp only [St.step, hj, hc, hp, and_self, if_true]
        rw [e]
        refine (ih { s with toMain := s.toMain ++ [.ui k] } hn' hm hp hj hc).trans ?_
        simp [uis_append, uis, sent]
  exact gen fs s hn h hr (i.ready hr).1 ho

theorem drain (s : St) : ∀ n, s.toMain.length ≤ n →
    (s.run (List.replicate n .main)).toMain = [] ∧ (s.main = .running → (s.run (List.replicate n .main)).main = .running ∧
      (s.run (List.replicate n .main)).reloads = s.reloads + (s.toMain.filter fun m => match m with
        | .zero => false | .reload => true | .ui k => decide (kReload ∈ k)).length) := by
  intro n
  induction n generalizing s with
  | zero =>
    intro h
    have : s.toMain = [] := List.eq_nil_of_length_eq_zero (by omega)
    simp [run_nil, this]
  | succ n ih =>
    intro h
    rw [List.replicate_succ, run_cons]
    cases hq : s.toMain with
    | nil =>
      have e : s.step .main = s := by simp only [St.step, hq]
      rw [e]
      have := ih s (by rw [hq]; simp)
      rwa [hq] at this
    | cons m ms =>
      rw [hq] at h
      have hl : ms.length ≤ n := by simpa using h
      have tm : (s.step .main).toMain = ms := by
        simp only [St.step, hq, St.handle]; split <;> first | rfl | (split <;> rfl)
      obtain ⟨a, b⟩ := ih (s.step .main) (by rw [tm]; exact hl)
      refine ⟨a, fun hm => ?_⟩
      have rm : (s.step .main).main = .running := by
        simp only [St.step, hq, St.handle, hm]; split <;> rfl
      obtain ⟨b1, b2⟩ := b rm
      refine ⟨b1, ?_⟩
      rw [b2, tm]
      simp only [St.step, hq, St.handle, hm]
      cases m with
      | zero => simp
      | reload => simp; omega
      | ui k =>
        by_cases hk : kReload ∈ k
        · simp [hk]; omega
        · simp [hk]

/-- C112: when a connection of a running page closes, the page is reloaded as soon as the main thread has taken what
was posted. -/
theorem C112_reloads (c : Config) (es : List Ev) (d : Bool) (h : ((St.init c).run es).main = .running)
    (ho : (((St.init c).run es).sock d).closed = false) (n : Nat) (hl : ((St.init c).run es).toMain.length < n) :
    ((St.init c).run es).reloads < ((St.init c).run (es ++ .closed d :: List.replicate n .main)).reloads := by
  rw [run_append, run_cons]
  generalize (St.init c).run es = s at *
  have e1 : (s.step (.closed d)).main = .running := by
    simp only [St.step, ho, Bool.false_eq_true, if_false]; cases d <;> exact h
  have e2 : (s.step (.closed d)).toMain = s.toMain ++ [.reload] := by
    simp only [St.step, ho, Bool.false_eq_true, if_false]
  have e3 : (s.step (.closed d)).reloads = s.reloads := by
    simp only [St.step, ho, Bool.false_eq_true, if_false]; cases d <;> rfl
  obtain ⟨-, b⟩ := drain (s.step (.closed d)) n (by rw [e2]; simp; omega)
  rw [(b e1).2, e2, e3, List.filter_append]
  simp

/-- C112: when a connection closes (or cannot be opened) before the worker is ready, the page never runs and is never
reloaded: the handler that waits for the worker takes the recommendation to reload instead of the `0`, and is gone. -/
theorem C112_stuck_fails (c : Config) (es fs : List Ev) (d : Bool) (h : ((St.init c).run es).phase ≠ .ready)
    (ho : (((St.init c).run es).sock d).closed = false) :
    ((St.init c).run (es ++ .closed d :: fs)).main ≠ .running ∧
    ((St.init c).run (es ++ .closed d :: fs)).reloads = 0 ∧ ((St.init c).run (es ++ .closed d :: fs)).got = [] := by
  have early : ∀ (es : List Ev) (s : St), s.phase ≠ .ready ∧ (∀ m ∈ s.toMain, m = .reload) ∧ s.main ≠ .running ∨ s.phase = .ready →
      ((s.run es).phase ≠ .ready ∧ (∀ m ∈ (s.run es).toMain, m = .reload) ∧ (s.run es).main ≠ .running) ∨
        (s.run es).phase = .ready := by
    intro es
    induction es with
    | nil => intro s h; exact h
    | cons e es ih =>
      intro s h
      apply ih
      rcases h with ⟨h1, h2, h3⟩ | h
      · cases e with
        | opened d => cases d <;> exact .inl ⟨h1, h2, h3⟩
        | closed d =>
          simp only [St.step]
          split
          · exact .inl ⟨h1, h2, h3⟩
          · have g : ∀ m ∈ s.toMain ++ [Msg.reload], m = .reload := by
              intro m hm
              rcases List.mem_append.mp hm with hm | hm
              · exact h2 m hm
              · simpa using hm
            cases d <;> exact .inl ⟨h1, g, h3⟩
        | work =>
          simp only [St.step, St.work]
          split
          · split
            · exact .inl ⟨h1, h2, h3⟩
            · exact .inl ⟨by simp, h2, h3⟩
            · exact .inl ⟨by simp, h2, h3⟩
          · split
            · exact .inl ⟨h1, h2, h3⟩
            · exact .inr rfl
            · exact .inl ⟨by simp, h2, h3⟩
          · exact .inl ⟨h1, h2, h3⟩
        | main =>
          cases hq : s.toMain with
          | nil =>
            have e : s.step .main = s := by simp only [St.step, hq]
            rw [e]; exact .inl ⟨h1, h2, h3⟩
          | cons m ms =>
            have hm : m = .reload := h2 m (by rw [hq]; simp)
            have g : ∀ m ∈ ms, m = .reload := fun m hm => h2 m (by rw [hq]; simp [hm])
            subst hm
            simp only [St.step, hq, St.handle]
            cases hmain : s.main with
            | waiting => exact .inl ⟨h1, g, by simp⟩
            | missed => exact .inl ⟨h1, g, by simp⟩
            | running => exact absurd hmain h3
        | ui k =>
          simp only [St.step]
          rw [if_neg (by rintro ⟨-, -, a⟩; exact h1 a)]
          exact .inl ⟨h1, h2, h3⟩
      · right
        cases e with
        | opened d => cases d <;> exact h
        | closed d => simp only [St.step]; split; · exact h
                      · cases d <;> exact h
        | work => simp only [St.step, St.work, h]
        | main =>
          simp only [St.step]; split; · exact h
          · simp only [St.handle]; split <;> first | exact h | (split <;> exact h)
        | ui k => simp only [St.step]; split <;> exact h
  have i0 : (St.init c).phase ≠ .ready ∧ (∀ m ∈ (St.init c).toMain, m = .reload) ∧ (St.init c).main ≠ .running := by
    unfold St.init
    refine ⟨?_, by simp, by simp⟩
    simp only
    split <;> simp
  have i := inv_run _ (inv_init c) es
  obtain ⟨h1, h2, h3⟩ := (early es _ (.inl i0)).resolve_right h
  rw [run_append, run_cons]
  generalize (St.init c).run es = s at *
  -- from here on the first message is or was the recommendation
  have late : ∀ (fs : List Ev) (s : St), (s.main = .missed ∨ s.main = .waiting ∧ s.toMain.head? = some .reload) →
      s.reloads = 0 → s.got = [] → (s.run fs).main ≠ .running ∧ (s.run fs).reloads = 0 ∧ (s.run fs).got = [] := by
    intro fs
    induction fs with
    | nil => intro s h a b; refine ⟨?_, a, b⟩; rcases h with h | ⟨h, -⟩ <;> rw [run_nil, h] <;> simp
    | cons e fs ih =>
      intro s h a b
      rw [run_cons]
      have app : ∀ l : List Msg, (s.main = .missed ∨ s.main = .waiting ∧ (s.toMain ++ l).head? = some .reload) := by
        intro l
        rcases h with h | ⟨h, g⟩
        · exact .inl h
        · exact .inr ⟨h, by rw [List.head?_append, g]; rfl⟩
      cases e with
      | opened d => cases d <;> exact ih _ h a b
      | closed d =>
        simp only [St.step]
        split
        · exact ih _ h a b
        · cases d <;> exact ih _ (app _) a b
      | work =>
        simp only [St.step, St.work]
        split
        · split <;> exact ih _ h a b
        · split
          · exact ih _ h a b
          · exact ih _ (app _) a b
          · exact ih _ h a b
        · exact ih _ h a b
      | main =>
        cases hq : s.toMain with
        | nil =>
          have e : s.step .main = s := by simp only [St.step, hq]
          rw [e]; exact ih _ h a b
        | cons m ms =>
          simp only [St.step, hq, St.handle]
          rcases h with h | ⟨h, g⟩
          · rw [h]; exact ih _ (.inl rfl) a b
          · rw [hq] at g
            simp only [List.head?_cons, Option.some.injEq] at g
            rw [h, g]
            exact ih _ (.inl (by simp)) a b
      | ui k =>
        simp only [St.step]
        split
        · exact ih _ (app _) a b
        · exact ih _ h a b
  have e2 : (s.step (.closed d)).toMain = s.toMain ++ [.reload] := by
    simp only [St.step, ho, Bool.false_eq_true, if_false]
  have e1 : (s.step (.closed d)).main = s.main := by
    simp only [St.step, ho, Bool.false_eq_true, if_false]; cases d <;> rfl
  have e3 : (s.step (.closed d)).reloads = s.reloads ∧ (s.step (.closed d)).got = s.got := by
    simp only [St.step, ho, Bool.false_eq_true, if_false]; cases d <;> exact ⟨rfl, rfl⟩
  refine late fs _ ?_ (by rw [e3.1]; exact (i.calm h3).1) (by rw [e3.2]; exact (i.calm h3).2)
  rw [e1, e2]
  cases hm : s.main with
  | running => exact absurd hm h3
  | missed => exact .inl rfl
  | waiting =>
    right
    refine ⟨rfl, ?_⟩
    cases hq : s.toMain with
    | nil => rfl
    | cons m ms => simp [h2 m (by rw [hq]; simp)]

/-- C112: any message for a tab named `reload` reloads the page. -/
theorem C112_name_fails (c : Config) (es : List Ev) (h : ((St.init c).run es).main = .running)
    (ho : ((St.init c).run es).json.closed = false) (keys : List Str) (hk : kReload ∈ keys) (n : Nat)
    (hl : ((St.init c).run es).toMain.length < n) :
    ((St.init c).run es).reloads < ((St.init c).run (es ++ .ui keys :: List.replicate n .main)).reloads := by
  have i := inv_run _ (inv_init c) es
  have hr := i.running h
  have hj := (i.ready hr).1
  rw [run_append, run_cons]
  generalize (St.init c).run es = s at *
  have e : s.step (.ui keys) = { s with toMain := s.toMain ++ [.ui keys] } := by
    simp only [St.step, hj, ho, hr, and_self, if_true]
  rw [e]
  obtain ⟨-, b⟩ := drain { s with toMain := s.toMain ++ [.ui keys] } n (by simp; omega)
  rw [(b h).2]
  simp [hk]

/-! ### Cases -/

/-- The package's ports. -/
def casePorts : List Port :=
  [⟨"runtimepy_http_server".toList, 8000⟩, ⟨"runtimepy_websocket_json_server".toList, 8001⟩,
   ⟨"runtimepy_websocket_data_server".toList, 8002⟩]

def caseHost : Str := "localhost".toList

theorem C112_cases :
    (workerConfig false [] caseHost casePorts).json = some ⟨false, caseHost, 8001⟩ ∧
    (workerConfig false [] caseHost casePorts).data = some ⟨false, caseHost, 8002⟩ ∧
    (∀ p ∈ casePorts, includes p.name kSecure = false) ∧
    (workerConfig true "example".toList caseHost
      [⟨"runtimepy_secure_websocket_json".toList, 1⟩, ⟨"runtimepy_secure_websocket_data".toList, 2⟩]).json =
        some ⟨true, "example".toList, 1⟩ ∧
    ((St.init (workerConfig false [] caseHost casePorts)).run
      [.opened true, .opened false, .work, .work, .main, .ui ["wave1".toList], .main]).got = [["wave1".toList]] ∧
    ((St.init (workerConfig false [] caseHost casePorts)).run
      [.opened false, .closed true, .work, .work, .main, .main]).main = .missed ∧
    ((St.init (workerConfig false [] caseHost casePorts)).run
      [.opened true, .opened false, .work, .work, .main, .closed true, .main]).reloads = 1 := by
  decide +kernel

end Verif.PageStart
