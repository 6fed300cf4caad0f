import Verif.Env.Command
import Verif.Dict
import Batteries.Tactic.Init
/-!
C87: commands sent to a peer program. A line typed at one program for its peer is parsed, queued,
written out again as text, sent, parsed there and run on one of the peer's environments.

Modelled: subprocess/interface.py 131–152 (`handle_command`), 115–122 (the hook), processor.py
128–208 and 224–231 (through `Environment.handle`), mixins/async_command.py 52–66,
message/handlers.py 29–59. Simplified: the argument parser is a parameter `parse` about which
`Laws` is assumed (what argparse does with this parser); sending a message and running it at the
peer is one step, with no time-out (identifiers and replies are C45, exceptions in the queue are
C56); the texts of results are left out.
-/
namespace Verif.Environment.Remote

open Verif.Wire Verif.Registry Verif.Environment Verif

abbrev Str := List Char

/-- The namespace argparse produces, command/parser.py 46–84. -/
structure Parsed where
  args : Args
  env : String

/-- The value of a `ChannelCommand`, command/parser.py 14–17. -/
def cmdText : Cmd → Str
  | .set => "set".toList
  | .toggle => "toggle".toList
  | .get => "get".toList
  | .custom => "custom".toList

/-- `str.split()` with no argument (processor.py 181): the maximal runs of characters that are
not white space. `acc` holds the current run. -/
def wordsFrom (ws : Char → Bool) (acc : Str) : Str → List Str
  | [] => if acc = [] then [] else [acc]
  | c :: r =>
    if ws c then (if acc = [] then wordsFrom ws [] r else acc :: wordsFrom ws [] r)
    else wordsFrom ws (acc ++ [c]) r

def words (ws : Char → Bool) (s : Str) : List Str := wordsFrom ws [] s

/-- `" ".join(…)`. -/
def join : List Str → Str
  | [] => []
  | [w] => w
  | w :: v :: r => w ++ ' ' :: join (v :: r)

/-- `cli_args + args.extra`, interface.py 137–140 and 146. -/
def tokens (a : Args) : List Str :=
  [cmdText a.command] ++ (if a.force then ["-f".toList] else []) ++ [a.channel.toList] ++ a.extra.map (·.toList)

/-- One request: the text and the name of the environment, interface.py 145–147. -/
structure Msg where
  text : Str
  env : String

/-- `channel_command(" ".join(cli_args + args.extra), environment=args.env)`. -/
def render (p : Parsed) : Msg := ⟨join (tokens p.args), p.env⟩

/-- What the name of an environment leads to: a processor of the program itself, or the
`RemoteCommandProcessor` for the other program (interface.py 123–125). -/
inductive Ref where
  | store (k : Nat)
  | back
  deriving DecidableEq

/-- What stays the same in a program: its environments, `ENVIRONMENTS` and the names in it. The
environment of the program's own struct has number 0. -/
structure Cfg where
  env : Nat → Env
  names : List (String × Ref)

/-- What changes in a program: the values of each environment, `outgoing_commands`, and what has
been done so far: custom commands run and requests sent. -/
structure Side where
  σ : Nat → State
  queue : List Parsed
  custom : List String
  sent : List Msg

/-- `put_nowait`, async_command.py 50. -/
def Side.put (s : Side) (ps : List Parsed) : Side := { s with queue := s.queue ++ ps }

/-- The hooks of a processor that concern us: the struct's own one queues the command
(async_command.py 35–37), those of other environments none. -/
def hooksOf (k : Nat) : List Unit := if k = 0 then [()] else []

/-- What the caller of `command` is told: `bool(result)`, or nothing if it raises. -/
abbrev Reply := Option Bool

/-- A local processor runs parsed arguments, `handle_command` processor.py 128–175. -/
def runStore (sem : Sem) (c : Cfg) (s : Side) (k : Nat) (p : Parsed) : Side × Reply :=
  let r := handle sem (c.env k) (hooksOf k) (s.σ k) p.args
  (({ s with σ := fun j => if j = k then r.1 else s.σ j } : Side).put (r.2.1.map fun _ => p),
    match r.2.2 with
    | .ok res => some res.good
    | .error _ => none)

/-- The processor for the other program, processor.py 228–231: `args.remote = True`, then the hook
queues the command. -/
def runBack (s : Side) (p : Parsed) : Side × Reply :=
  (s.put [{ p with args := { p.args with remote := true } }], some true)

/-- `command`, processor.py 185–208, on either processor. -/
def runLine (sem : Sem) (ws : Char → Bool) (parse : List Str → Option Parsed) (c : Cfg) (s : Side)
    (r : Ref) (text : Str) : Side × Reply :=
  match parse (words ws text) with
  | none => (s, some false)
  | some p =>
    match r with
    | .store k => runStore sem c s k p
    | .back => runBack s p

/-- The environment a request names, handlers.py 40–44: "default" is the struct's own. -/
def resolve (c : Cfg) (name : String) : Option Ref :=
  if name = "default" then some (.store 0) else dget c.names name

/-- `channel_env_handler`, handlers.py 34–57. -/
def recv (sem : Sem) (ws : Char → Bool) (parse : List Str → Option Parsed) (c : Cfg) (s : Side) (m : Msg) :
    Side × Reply :=
  match resolve c m.env with
  | none => (s, some false)
  | some r => runLine sem ws parse c s r m.text

/-- The two programs. -/
abbrev Sys := Bool → Side

def Sys.set (S : Sys) (w : Bool) (s : Side) : Sys := fun v => if v = w then s else S v

/-- One turn of `process_command_queue` in program `w`, async_command.py 55–66, with
`handle_command`, interface.py 131–152. -/
def proc (sem : Sem) (ws : Char → Bool) (parse : List Str → Option Parsed) (C : Bool → Cfg) (S : Sys) (w : Bool) :
    Sys :=
  match (S w).queue with
  | [] => S
  | p :: rest =>
    if p.args.command = .custom then
      S.set w { S w with queue := rest, custom := (S w).custom ++ [p.args.channel] }
    else if p.args.remote then
      (S.set w { S w with queue := rest, sent := (S w).sent ++ [render p] }).set (!w)
        (recv sem ws parse (C (!w)) (S (!w)) (render p)).1
    else S.set w { S w with queue := rest }

inductive Op where
  /-- someone enters `text` in program `w` on the processor `r` -/
  | line (w : Bool) (r : Ref) (text : Str)
  | proc (w : Bool)

def step (sem : Sem) (ws : Char → Bool) (parse : List Str → Option Parsed) (C : Bool → Cfg) (S : Sys) : Op → Sys
  | .line w r t => S.set w (runLine sem ws parse (C w) (S w) r t).1
  | .proc w => proc sem ws parse C S w

def run (sem : Sem) (ws : Char → Bool) (parse : List Str → Option Parsed) (C : Bool → Cfg) (S : Sys)
    (ops : List Op) : Sys := ops.foldl (step sem ws parse C) S

/-! ### What is assumed of the parser -/

/-- `^-\d+$|^-\d*\.\d+$` (`_negative_number_matcher` of argparse). -/
def isNegative : Str → Bool
  | '-' :: r =>
    (r != [] && r.all Char.isDigit) ||
    (match r.dropWhile Char.isDigit with
     | '.' :: d => d != [] && d.all Char.isDigit
     | _ => false)
  | _ => false

/-- A token argparse takes as a positional argument wherever it stands. -/
def Plain (t : Str) : Prop := t.head? ≠ some '-' ∨ isNegative t = true

def ns (cmd : Cmd) (remote force : Bool) (ch : Str) (extra : List Str) (env : String) : Parsed :=
  ⟨⟨cmd, remote, force, String.ofList ch, extra.map String.ofList⟩, env⟩

/-- What argparse does with the parser of command/parser.py 46–84. -/
structure Laws (parse : List Str → Option Parsed) : Prop where
  /-- plain arguments after the command and an optional `-f` -/
  plain : ∀ cmd force ch extra, Plain ch → (∀ x ∈ extra, Plain x) →
    parse ([cmdText cmd] ++ (if force then ["-f".toList] else []) ++ [ch] ++ extra)
      = some (ns cmd false force ch extra "default")
  /-- a final `-r` is the flag -/
  remote : ∀ cmd ch, Plain ch → parse [cmdText cmd, ch, "-r".toList] = some (ns cmd true false ch [] "default")
  /-- everything after `--` is positional, and `--` itself is dropped -/
  dashes : ∀ cmd ch x, Plain ch →
    parse [cmdText cmd, ch, "--".toList, x] = some (ns cmd false false ch [x] "default")

/-! ### Text -/

/-- Every token of a line is non-empty and free of white space. -/
def Word (ws : Char → Bool) (t : Str) : Prop := t ≠ [] ∧ ∀ c ∈ t, ws c = false

theorem wordsFrom_run (ws : Char → Bool) (t acc r : Str) (h : ∀ c ∈ t, ws c = false) :
    wordsFrom ws acc (t ++ r) = wordsFrom ws (acc ++ t) r := by
  induction t generalizing acc with
  | nil => simp
  | cons c t ih =>
    rw [List.cons_append, wordsFrom, h c (by simp)]
    rw [if_neg (by simp), ih _ (fun x hx => h x (by simp [hx]))]
    simp

theorem words_join (ws : Char → Bool) (hs : ws ' ' = true) (l : List Str) (h : ∀ t ∈ l, Word ws t) :
    words ws (join l) = l := by
  induction l with
  | nil => rfl
  | cons w r ih =>
    cases r with
    | nil =>
      have := wordsFrom_run ws w [] [] (h w (by simp)).2
      simp only [List.append_nil, List.nil_append] at this
      rw [words, join, this, wordsFrom, if_neg (h w (by simp)).1]
    | cons v r =>
      rw [words, join, wordsFrom_run ws w [] _ (h w (by simp)).2, List.nil_append, wordsFrom, if_pos hs,
        if_neg (h w (by simp)).1]
      have := ih (fun t ht => h t (List.mem_cons_of_mem _ ht))
      rw [words] at this
      rw [this]

/-- Every word `split` yields is one. -/
theorem words_word (ws : Char → Bool) (s acc : Str) (ha : ∀ c ∈ acc, ws c = false) :
    ∀ t ∈ wordsFrom ws acc s, Word ws t := by
  induction s generalizing acc with
  | nil =>
    intro t ht
    rw [wordsFrom] at ht
    split at ht
    · simp at ht
    · rename_i h; simp at ht; subst ht; exact ⟨h, ha⟩
  | cons c r ih =>
    intro t ht
    rw [wordsFrom] at ht
    split at ht
    · split at ht
      · exact ih [] (by simp) t ht
      · rename_i h
        rcases List.mem_cons.mp ht with rfl | ht
        · exact ⟨h, ha⟩
        · exact ih [] (by simp) t ht
    · rename_i hc
      refine ih _ (fun x hx => ?_) t ht
      rcases List.mem_append.mp hx with hx | hx
      · exact ha x hx
      · simp at hx; subst hx; simpa using hc

/-- The arguments of a line that came out of `split`, all of them plain. -/
def Clean (ws : Char → Bool) (a : Args) : Prop :=
  (Word ws a.channel.toList ∧ Plain a.channel.toList) ∧ ∀ x ∈ a.extra, Word ws x.toList ∧ Plain x.toList

/-- White space as the code needs it: the space is, the characters of commands and flags are not. -/
structure Space (ws : Char → Bool) : Prop where
  space : ws ' ' = true
  letter : ∀ c, c.isAlpha = true ∨ c = '-' → ws c = false

theorem cmd_word (ws : Char → Bool) (h : Space ws) (c : Cmd) : Word ws (cmdText c) := by
  cases c <;> refine ⟨by decide, fun x hx => h.letter x (Or.inl ?_)⟩ <;>
    (simp only [cmdText] at hx; revert x; decide)

theorem f_word (ws : Char → Bool) (h : Space ws) : Word ws "-f".toList :=
  ⟨by decide, fun x hx => h.letter x (by revert x; decide)⟩

/-- C87. The text built from a clean command says the same on the other side: same command, flag,
channel and arguments; it is no longer remote. -/
theorem C87_text (ws : Char → Bool) (hw : Space ws) (parse : List Str → Option Parsed) (hp : Laws parse)
    (p : Parsed) (h : Clean ws p.args) :
    parse (words ws (render p).text) = some ⟨{ p.args with remote := false }, "default"⟩ ∧ (render p).env = p.env := by
  refine ⟨?_, rfl⟩
  have hall : ∀ t ∈ tokens p.args, Word ws t := by
    intro t ht
    simp only [tokens, List.mem_append, List.mem_map, List.mem_singleton] at ht
    rcases ht with ((rfl | ht) | rfl) | ⟨x, hx, rfl⟩
    · exact cmd_word ws hw _
    · split at ht
      · simp only [List.mem_singleton] at ht; subst ht; exact f_word ws hw
      · simp at ht
    · exact h.1.1
    · exact (h.2 x hx).1
  show parse (words ws (join (tokens p.args))) = _
  rw [words_join ws hw.space _ hall]
  have := hp.plain p.args.command p.args.force p.args.channel.toList (p.args.extra.map (·.toList)) h.1.2
    (by intro x hx; obtain ⟨y, hy, rfl⟩ := List.mem_map.mp hx; exact (h.2 y hy).2)
  rw [show tokens p.args = [cmdText p.args.command] ++ (if p.args.force then ["-f".toList] else [])
    ++ [p.args.channel.toList] ++ p.args.extra.map (·.toList) from rfl, this]
  simp only [ns, List.map_map, String.ofList_toList]
  congr 2
  congr 1
  exact (List.map_congr_left (fun x _ => by simp)).trans (List.map_id _)

/-! ### Effect -/

/-- What a command does to the values of an environment when run there. -/
def effect (sem : Sem) (E : Env) (σ : State) (a : Args) : State :=
  (handle sem E ([] : List Unit) σ { a with remote := false }).1

theorem handle_hooks {H H' : Type} (sem : Sem) (E : Env) (h : List H) (h' : List H') (σ : State) (a : Args) :
    (handle sem E h σ a).1 = (handle sem E h' σ a).1 ∧ (handle sem E h σ a).2.2 = (handle sem E h' σ a).2.2 := by
  unfold handle
  by_cases h1 : (a.remote || a.command == .custom) = true
  · rw [if_pos h1, if_pos h1]; exact ⟨rfl, rfl⟩
  · rw [if_neg h1, if_neg h1]
    by_cases h2 : a.command = .get ∧ E.exists (.name a.channel) = true
    · rw [if_pos h2, if_pos h2]; exact ⟨rfl, rfl⟩
    · rw [if_neg h2, if_neg h2]
      cases E.fieldOrChannel (.name a.channel) with
      | none => exact ⟨rfl, rfl⟩
      | some t =>
        simp only
        by_cases h3 : (!t.commandable && !a.force) = true
        · rw [if_pos h3, if_pos h3]; exact ⟨rfl, rfl⟩
        · rw [if_neg h3, if_neg h3]
          cases a.command with
          | get => exact ⟨rfl, rfl⟩
          | custom => exact ⟨rfl, rfl⟩
          | toggle => simp only; cases (doToggle E σ t).2 <;> exact ⟨rfl, rfl⟩
          | set => simp only; cases (doSet sem E σ a).2 <;> exact ⟨rfl, rfl⟩

theorem set_self (S : Sys) (w : Bool) (s : Side) : S.set w s w = s := by simp [Sys.set]
theorem set_other (S : Sys) (w v : Bool) (s : Side) (h : v ≠ w) : S.set w s v = S v := by simp [Sys.set, h]

theorem runStore_σ (sem : Sem) (c : Cfg) (s : Side) (k : Nat) (p : Parsed) (h : p.args.remote = false) :
    (runStore sem c s k p).1.σ = fun j => if j = k then effect sem (c.env k) (s.σ k) p.args else s.σ j := by
  have e : p.args = { p.args with remote := false } := by
    rw [show (p.args : Args) = ⟨p.args.command, p.args.remote, p.args.force, p.args.channel, p.args.extra⟩ from rfl, h]
  funext j
  simp only [runStore, Side.put, effect]
  rw [← e, (handle_hooks sem (c.env k) (hooksOf k) ([] : List Unit) (s.σ k) p.args).1]

/-- Everything a local command queues has the flag the command had. -/
theorem runStore_queue (sem : Sem) (c : Cfg) (s : Side) (k : Nat) (p : Parsed) :
    ∃ n, (runStore sem c s k p).1.queue = s.queue ++ List.replicate n p ∧
      (runStore sem c s k p).1.custom = s.custom ∧ (runStore sem c s k p).1.sent = s.sent := by
  refine ⟨(handle sem (c.env k) (hooksOf k) (s.σ k) p.args).2.1.length, ?_, rfl, rfl⟩
  simp only [runStore, Side.put, List.map_const']

/-- C87. A queued remote command, when its turn comes, has on the environment it names at the
peer exactly the effect it would have there; other environments of the peer and all of the
sender's keep their values, and one request is sent. -/
theorem C87_effect (sem : Sem) (ws : Char → Bool) (hw : Space ws) (parse : List Str → Option Parsed)
    (hp : Laws parse) (C : Bool → Cfg) (S : Sys) (w : Bool) (p : Parsed) (rest : List Parsed)
    (hq : (S w).queue = p :: rest) (hr : p.args.remote = true) (hc : p.args.command ≠ .custom)
    (h : Clean ws p.args) (k : Nat) (hk : resolve (C (!w)) p.env = some (.store k)) :
    (proc sem ws parse C S w (!w)).σ k = effect sem ((C (!w)).env k) ((S (!w)).σ k) p.args ∧
    (∀ j, j ≠ k → (proc sem ws parse C S w (!w)).σ j = (S (!w)).σ j) ∧
    (proc sem ws parse C S w w).σ = (S w).σ ∧
    (proc sem ws parse C S w w).queue = rest ∧
    (proc sem ws parse C S w w).sent = (S w).sent ++ [render p] := by
  have hne : w ≠ !w := by cases w <;> decide
  have ht := (C87_text ws hw parse hp p h).1
  have e : proc sem ws parse C S w = (S.set w { S w with queue := rest, sent := (S w).sent ++ [render p] }).set (!w)
      (runStore sem (C (!w)) (S (!w)) k ⟨{ p.args with remote := false }, "default"⟩).1 := by
    rw [proc, hq]
    simp only
    rw [if_neg hc, if_pos hr, recv]
    rw [show (render p).env = p.env from rfl, hk]
    simp only [runLine, ht]
  have e1 : proc sem ws parse C S w (!w)
      = (runStore sem (C (!w)) (S (!w)) k ⟨{ p.args with remote := false }, "default"⟩).1 := by
    rw [e, set_self]
  have e2 : proc sem ws parse C S w w = { S w with queue := rest, sent := (S w).sent ++ [render p] } := by
    rw [e, set_other _ _ _ _ hne, set_self]
  rw [e1, e2, runStore_σ _ _ _ _ _ rfl]
  refine ⟨?_, ?_, rfl, rfl, rfl⟩
  · show (if k = k then _ else _) = _
    rw [if_pos rfl]; rfl
  · intro j hj
    show (if j = k then _ else _) = _
    rw [if_neg hj]

/-- C87. A request naming an environment the peer does not have changes nothing there. -/
theorem C87_unknown (sem : Sem) (ws : Char → Bool) (parse : List Str → Option Parsed) (c : Cfg) (s : Side) (m : Msg)
    (h : m.env ≠ "default") (hn : dget c.names m.env = none) : recv sem ws parse c s m = (s, some false) := by
  simp [recv, resolve, h, hn]

/-- C87. A line the parser refuses changes nothing, and whoever sent it is told that it failed. -/
theorem C87_refused (sem : Sem) (ws : Char → Bool) (parse : List Str → Option Parsed) (c : Cfg) (s : Side) (m : Msg)
    (r : Ref) (h : parse (words ws m.text) = none) : runLine sem ws parse c s r m.text = (s, some false) ∧
      recv sem ws parse c s m = (s, some false) := by
  refine ⟨by simp [runLine, h], ?_⟩
  unfold recv
  split
  · rfl
  · simp [runLine, h]

/-! ### A whole execution -/

/-- The commands among `l` that will be sent. -/
def outgoing (l : List Parsed) : List Args :=
  (l.filter fun p => p.args.remote && p.args.command != .custom).map (·.args)

/-- What a line entered at a program asks to be sent to the other: any line given to the peer's
processor, and lines with `-r` given to the program's own. -/
def asks (ws : Char → Bool) (parse : List Str → Option Parsed) (r : Ref) (text : Str) : List Args :=
  match parse (words ws text), r with
  | none, _ => []
  | some p, .back => if p.args.command = .custom then [] else [{ p.args with remote := true }]
  | some p, .store 0 => if p.args.remote = true ∧ p.args.command ≠ .custom then [p.args] else []
  | some _, .store _ => []

/-- The commands the people at `w` have asked to be sent, in order. -/
def asked (ws : Char → Bool) (parse : List Str → Option Parsed) (w : Bool) : List Op → List Args
  | [] => []
  | .line v r t :: ops => (if v = w then asks ws parse r t else []) ++ asked ws parse w ops
  | .proc _ :: ops => asked ws parse w ops

/-- Lines are entered at `w` only, and what is to be sent is clean and for the peer's own struct. -/
def Fair (ws : Char → Bool) (parse : List Str → Option Parsed) (w : Bool) : Op → Prop
  | .line v _ t => v = w ∧ ∀ p, parse (words ws t) = some p → Clean ws p.args ∧ p.env = "default"
  | .proc _ => True

theorem outgoing_append (a b : List Parsed) : outgoing (a ++ b) = outgoing a ++ outgoing b := by
  simp [outgoing]

/-- In a local command without `-r` nothing that is queued will be sent. -/
theorem outgoing_replicate_local (n : Nat) (p : Parsed) (h : p.args.remote = false) :
    outgoing (List.replicate n p) = [] := by
  simp [outgoing, List.filter_replicate, h]

theorem runLine_outgoing (sem : Sem) (ws : Char → Bool) (parse : List Str → Option Parsed) (c : Cfg) (s : Side)
    (r : Ref) (t : Str) :
    outgoing (runLine sem ws parse c s r t).1.queue = outgoing s.queue ++ asks ws parse r t := by
  unfold runLine asks
  cases parse (words ws t) with
  | none => simp
  | some p =>
    cases r with
    | back =>
      simp only [runBack, Side.put, outgoing_append]
      congr 1
      by_cases hc : p.args.command = .custom
      · simp [outgoing, hc]
      · simp [outgoing, hc]
    | store k =>
      simp only
      by_cases hrc : p.args.remote = true ∧ p.args.command ≠ .custom
      · have e : handle sem (c.env k) (hooksOf k) (s.σ k) p.args
            = (s.σ k, (hooksOf k).map (fun h => ⟨h, none⟩), .ok (.success none)) :=
          (C37_remote sem (c.env k) (hooksOf k) (s.σ k) p.args).1 (Or.inl hrc.1)
        have eq : (runStore sem c s k p).1.queue = s.queue ++ (hooksOf k).map (fun _ => p) := by
          simp only [runStore, Side.put, e, List.map_map]; rfl
        rw [eq, outgoing_append]
        congr 1
        cases k with
        | zero => simp [hooksOf, outgoing, hrc]
        | succ k => simp [hooksOf, outgoing]
      · obtain ⟨n, hn, -, -⟩ := runStore_queue sem c s k p
        rw [hn, outgoing_append]
        congr 1
        have : outgoing (List.replicate n p) = [] := by
          have hb : (p.args.remote && p.args.command != .custom) = false := by
            cases hr : p.args.remote
            · rfl
            · have : p.args.command = .custom := Classical.byContradiction fun h => hrc ⟨hr, h⟩
              rw [this]; rfl
          simp [outgoing, List.filter_replicate, hb]
        rw [this]
        cases k with
        | zero => simp only; rw [if_neg hrc]
        | succ k => rfl

/-- What holds while lines are entered at `w` only. -/
structure Inv (sem : Sem) (ws : Char → Bool) (C : Bool → Cfg) (w : Bool) (σ₀ : State) (S : Sys) (cmds : List Args) : Prop where
  quiet : outgoing (S (!w)).queue = []
  sent : (S (!w)).sent = []
  clean : ∀ p ∈ (S w).queue, p.args.remote = true → Clean ws p.args ∧ p.env = "default"
  total : (outgoing (S w).queue).foldl (effect sem ((C (!w)).env 0)) ((S (!w)).σ 0)
    = cmds.foldl (effect sem ((C (!w)).env 0)) σ₀

theorem inv_step (sem : Sem) (ws : Char → Bool) (hw : Space ws) (parse : List Str → Option Parsed) (hp : Laws parse)
    (C : Bool → Cfg) (w : Bool) (σ₀ : State) (S : Sys) (cmds : List Args) (h : Inv sem ws C w σ₀ S cmds) (op : Op)
    (hf : Fair ws parse w op) : Inv sem ws C w σ₀ (step sem ws parse C S op) (cmds ++ asked ws parse w [op]) := by
  have hne : w ≠ !w := by cases w <;> decide
  have hne' : (!w) ≠ w := by cases w <;> decide
  cases op with
  | line v r t =>
    obtain ⟨rfl, hf⟩ := hf
    have ev : (step sem ws parse C S (.line v r t)) v = (runLine sem ws parse (C v) (S v) r t).1 := set_self _ _ _
    have eo : (step sem ws parse C S (.line v r t)) (!v) = S (!v) := set_other _ _ _ _ hne'
    refine ⟨by rw [eo]; exact h.quiet, by rw [eo]; exact h.sent, ?_, ?_⟩
    · rw [ev]
      intro p hpq hr
      unfold runLine at hpq
      cases hparse : parse (words ws t) with
      | none => rw [hparse] at hpq; exact h.clean p hpq hr
      | some q =>
        rw [hparse] at hpq
        cases r with
        | store k =>
          simp only at hpq
          obtain ⟨n, hn, -, -⟩ := runStore_queue sem (C v) (S v) k q
          rw [hn, List.mem_append] at hpq
          rcases hpq with hpq | hpq
          · exact h.clean p hpq hr
          · rw [List.mem_replicate] at hpq
            rw [hpq.2]; exact hf q hparse
        | back =>
          simp only [runBack, Side.put, List.mem_append, List.mem_singleton] at hpq
          rcases hpq with hpq | rfl
          · exact h.clean p hpq hr
          · exact hf q hparse
    · rw [ev, eo, runLine_outgoing, List.foldl_append, h.total]
      simp [asked, List.foldl_append]
  | proc v =>
    have ea : asked ws parse w [.proc v] = [] := rfl
    rw [ea, List.append_nil]
    show Inv sem ws C w σ₀ (proc sem ws parse C S v) cmds
    cases hq : (S v).queue with
    | nil =>
      rw [proc, hq]; exact h
    | cons p rest =>
      by_cases hv : v = w
      · subst hv
        by_cases hc : p.args.command = .custom
        · have e : proc sem ws parse C S v
              = S.set v { S v with queue := rest, custom := (S v).custom ++ [p.args.channel] } := by
            rw [proc, hq]; simp only; rw [if_pos hc]
          rw [e]
          refine ⟨by rw [set_other _ _ _ _ hne']; exact h.quiet, by rw [set_other _ _ _ _ hne']; exact h.sent, ?_, ?_⟩
          · rw [set_self]; intro q hq' ; exact h.clean q (by rw [hq]; exact List.mem_cons_of_mem _ hq')
          · rw [set_self, set_other _ _ _ _ hne', ← h.total, hq]
            congr 1
            simp [outgoing, hc]
        · by_cases hr : p.args.remote = true
          · obtain ⟨hcl, henv⟩ := h.clean p (by rw [hq]; simp) hr
            have hk : resolve (C (!v)) p.env = some (.store 0) := by rw [henv]; rfl
            obtain ⟨e1, -, e3, e4, e5⟩ := C87_effect sem ws hw parse hp C S v p rest hq hr hc hcl 0 hk
            have ht := (C87_text ws hw parse hp p hcl).1
            have eo : proc sem ws parse C S v (!v)
                = (runStore sem (C (!v)) (S (!v)) 0 ⟨{ p.args with remote := false }, "default"⟩).1 := by
              rw [proc, hq]
              simp only
              rw [if_neg hc, if_pos hr, recv, show (render p).env = p.env from rfl, hk]
              simp only [runLine, ht]
              rw [set_self]
            obtain ⟨n, hn, -, hs⟩ := runStore_queue sem (C (!v)) (S (!v)) 0 ⟨{ p.args with remote := false }, "default"⟩
            refine ⟨?_, ?_, ?_, ?_⟩
            · rw [eo, hn, outgoing_append, h.quiet, outgoing_replicate_local _ _ rfl]; rfl
            · rw [eo, hs]; exact h.sent
            · rw [e4]; intro q hq'; exact h.clean q (by rw [hq]; exact List.mem_cons_of_mem _ hq')
            · rw [e4, e1, ← h.total, hq]
              have : outgoing (p :: rest) = p.args :: outgoing rest := by
                simp [outgoing, hr, hc]
              rw [this, List.foldl_cons]
          · have e : proc sem ws parse C S v = S.set v { S v with queue := rest } := by
              rw [proc, hq]; simp only; rw [if_neg hc, if_neg hr]
            rw [e]
            refine ⟨by rw [set_other _ _ _ _ hne']; exact h.quiet, by rw [set_other _ _ _ _ hne']; exact h.sent, ?_, ?_⟩
            · rw [set_self]; intro q hq' ; exact h.clean q (by rw [hq]; exact List.mem_cons_of_mem _ hq')
            · rw [set_self, set_other _ _ _ _ hne', ← h.total, hq]
              congr 1
              have hr' : p.args.remote = false := by simpa using hr
              simp [outgoing, hr']
      · have hv' : v = !w := by cases v <;> cases w <;> simp_all
        subst hv'
        have hout : ¬ (p.args.remote = true ∧ p.args.command ≠ .custom) ∧ outgoing rest = [] := by
          have := h.quiet
          rw [hq, show p :: rest = [p] ++ rest from rfl, outgoing_append, List.append_eq_nil_iff] at this
          refine ⟨?_, this.2⟩
          rintro ⟨a, b⟩
          have := this.1
          simp [outgoing, a, b] at this
        by_cases hc : p.args.command = .custom
        · have e : proc sem ws parse C S (!w)
              = S.set (!w) { S (!w) with queue := rest, custom := (S (!w)).custom ++ [p.args.channel] } := by
            rw [proc, hq]; simp only; rw [if_pos hc]
          rw [e]
          refine ⟨by rw [set_self]; exact hout.2, by rw [set_self]; exact h.sent, ?_, ?_⟩
          · rw [set_other _ _ _ _ hne]; exact h.clean
          · rw [set_other _ _ _ _ hne, set_self]; exact h.total
        · have hr : ¬ p.args.remote = true := fun hr => hout.1 ⟨hr, hc⟩
          have e : proc sem ws parse C S (!w) = S.set (!w) { S (!w) with queue := rest } := by
            rw [proc, hq]; simp only; rw [if_neg hc, if_neg hr]
          rw [e]
          refine ⟨by rw [set_self]; exact hout.2, by rw [set_self]; exact h.sent, ?_, ?_⟩
          · rw [set_other _ _ _ _ hne]; exact h.clean
          · rw [set_other _ _ _ _ hne, set_self]; exact h.total

theorem asked_append (ws : Char → Bool) (parse : List Str → Option Parsed) (w : Bool) (a b : List Op) :
    asked ws parse w (a ++ b) = asked ws parse w a ++ asked ws parse w b := by
  induction a with
  | nil => rfl
  | cons op a ih => cases op <;> simp [asked, ih]

/-- A program that has just started. -/
def Fresh (s : Side) : Prop := s.queue = [] ∧ s.custom = [] ∧ s.sent = []

theorem inv_run (sem : Sem) (ws : Char → Bool) (hw : Space ws) (parse : List Str → Option Parsed) (hp : Laws parse)
    (C : Bool → Cfg) (w : Bool) (S : Sys) (hS : ∀ v, Fresh (S v)) (ops : List Op)
    (hf : ∀ op ∈ ops, Fair ws parse w op) :
    Inv sem ws C w ((S (!w)).σ 0) (run sem ws parse C S ops) (asked ws parse w ops) := by
  suffices h : ∀ (cmds : List Args) (S' : Sys), Inv sem ws C w ((S (!w)).σ 0) S' cmds →
      Inv sem ws C w ((S (!w)).σ 0) (run sem ws parse C S' ops) (cmds ++ asked ws parse w ops) by
    have h0 : Inv sem ws C w ((S (!w)).σ 0) S [] := by
      refine ⟨by rw [(hS _).1]; rfl, (hS _).2.2, by rw [(hS _).1]; simp, by rw [(hS _).1]; rfl⟩
    exact h [] S h0
  intro cmds S' h
  induction ops generalizing cmds S' with
  | nil => simpa [asked, run] using h
  | cons op ops ih =>
    have := ih (fun o ho => hf o (by simp [ho])) _ _ (inv_step sem ws hw parse hp C w _ S' cmds h op (hf op (by simp)))
    rw [List.append_assoc, ← asked_append] at this
    simpa [run] using this

/-- C87. Over every execution in which lines are entered at one program and all that is sent is
clean: the values of the peer's struct are those that the commands asked for, in the order they
were entered and each once, produce there, once those still queued have been sent. The peer
sends nothing back. -/
theorem C87_in_order (sem : Sem) (ws : Char → Bool) (hw : Space ws) (parse : List Str → Option Parsed)
    (hp : Laws parse) (C : Bool → Cfg) (w : Bool) (S : Sys) (hS : ∀ v, Fresh (S v)) (ops : List Op)
    (hf : ∀ op ∈ ops, Fair ws parse w op) :
    (outgoing (run sem ws parse C S ops w).queue).foldl (effect sem ((C (!w)).env 0)) ((run sem ws parse C S ops (!w)).σ 0)
      = (asked ws parse w ops).foldl (effect sem ((C (!w)).env 0)) ((S (!w)).σ 0) ∧
    (run sem ws parse C S ops (!w)).sent = [] ∧
    ((run sem ws parse C S ops w).queue = [] → (run sem ws parse C S ops (!w)).σ 0
      = (asked ws parse w ops).foldl (effect sem ((C (!w)).env 0)) ((S (!w)).σ 0)) := by
  have h := inv_run sem ws hw parse hp C w S hS ops hf
  refine ⟨h.total, h.sent, fun hq => ?_⟩
  have := h.total
  rw [hq] at this
  exact this

/-! ### What fails -/

/-- C87 fails for custom commands: one entered for the peer is run by the program it was entered
at, among its own custom commands; nothing is sent, whatever the peer could do with it. -/
theorem C87_custom_fails (sem : Sem) (ws : Char → Bool) (parse : List Str → Option Parsed) (C : Bool → Cfg)
    (S : Sys) (w : Bool) (t : Str) (p : Parsed) (ht : parse (words ws t) = some p) (hc : p.args.command = .custom)
    (hq : (S w).queue = []) :
    (run sem ws parse C S [.line w .back t, .proc w] w).custom = (S w).custom ++ [p.args.channel] ∧
    (run sem ws parse C S [.line w .back t, .proc w] w).sent = (S w).sent ∧
    run sem ws parse C S [.line w .back t, .proc w] (!w) = S (!w) := by
  have hne' : (!w) ≠ w := by cases w <;> decide
  have e : run sem ws parse C S [.line w .back t, .proc w]
      = proc sem ws parse C (S.set w ((S w).put [{ p with args := { p.args with remote := true } }])) w := by
    simp [run, step, runLine, ht, runBack]
  rw [e, proc, set_self]
  simp only [Side.put, hq, List.nil_append, hc, if_true]
  rw [set_self, set_other _ _ _ _ hne', set_other _ _ _ _ hne']
  exact ⟨rfl, rfl, rfl⟩

/-- C87 fails for results: a line for the peer that parses is answered with success at once,
also if the peer has no such channel. -/
theorem C87_result_fails (sem : Sem) (ws : Char → Bool) (parse : List Str → Option Parsed) (c : Cfg) (s : Side)
    (t : Str) (p : Parsed) (ht : parse (words ws t) = some p) :
    (runLine sem ws parse c s .back t).2 = some true := by
  simp [runLine, ht, runBack]

/-- C87 fails for an argument that looks like a flag, which a line can give after `--`: the `--`
is not written out again. With the argument `-r` the peer takes the command for a remote one and
sends it back, so that it runs on the values of the program it came from. -/
theorem C87_bounce_fails (sem : Sem) (ws : Char → Bool) (hw : Space ws) (parse : List Str → Option Parsed)
    (hp : Laws parse) (C : Bool → Cfg) (S : Sys) (hS : ∀ v, Fresh (S v)) (w : Bool) (ch : Str)
    (hch : Word ws ch ∧ Plain ch) :
    (run sem ws parse C S [.line w .back (join ["toggle".toList, ch, "--".toList, "-r".toList]),
        .proc w, .proc (!w)] w).σ 0
      = effect sem ((C w).env 0) ((S w).σ 0) ⟨.toggle, false, false, String.ofList ch, []⟩ ∧
    (run sem ws parse C S [.line w .back (join ["toggle".toList, ch, "--".toList, "-r".toList]),
        .proc w, .proc (!w)] (!w)).σ = (S (!w)).σ := by
  have hne : w ≠ !w := by cases w <;> decide
  have hne' : (!w) ≠ w := by cases w <;> decide
  have hword : ∀ t : Str, t ≠ [] → (∀ c ∈ t, c.isAlpha = true ∨ c = '-') → Word ws t :=
    fun t h1 h2 => ⟨h1, fun c hc => hw.letter c (h2 c hc)⟩
  have htog : Word ws "toggle".toList := cmd_word ws hw .toggle
  have hdd : Word ws "--".toList := hword _ (by decide) (by decide)
  have hrr : Word ws "-r".toList := hword _ (by decide) (by decide)
  -- the line
  have p1 : parse (words ws (join ["toggle".toList, ch, "--".toList, "-r".toList]))
      = some (ns .toggle false false ch ["-r".toList] "default") := by
    rw [words_join ws hw.space _ (by
      intro t ht
      simp only [List.mem_cons, List.not_mem_nil, or_false] at ht
      rcases ht with rfl | rfl | rfl | rfl
      exacts [htog, hch.1, hdd, hrr])]
    exact hp.dashes .toggle ch _ hch.2
  -- what is sent
  have r1 : render ⟨⟨.toggle, true, false, String.ofList ch, ["-r"]⟩, "default"⟩
      = ⟨join ["toggle".toList, ch, "-r".toList], "default"⟩ := by
    simp [render, tokens, cmdText]
  have p2 : parse (words ws (join ["toggle".toList, ch, "-r".toList])) = some (ns .toggle true false ch [] "default") := by
    rw [words_join ws hw.space _ (by
      intro t ht
      simp only [List.mem_cons, List.not_mem_nil, or_false] at ht
      rcases ht with rfl | rfl | rfl
      exacts [htog, hch.1, hrr])]
    exact hp.remote .toggle ch hch.2
  generalize hline : join ["toggle".toList, ch, "--".toList, "-r".toList] = line at p1 ⊢
  have q1 : (S w).queue = [] := (hS w).1
  have q2 : (S (!w)).queue = [] := (hS (!w)).1
  let P1 : Parsed := ⟨⟨.toggle, true, false, String.ofList ch, ["-r"]⟩, "default"⟩
  let P2 : Parsed := ⟨⟨.toggle, true, false, String.ofList ch, []⟩, "default"⟩
  let S1 := S.set w ((S w).put [P1])
  have e1 : step sem ws parse C S (.line w .back line) = S1 := by
    show S.set w (runLine sem ws parse (C w) (S w) .back line).1 = _
    rw [runLine, p1]; rfl
  let S2 := (S1.set w { S1 w with queue := [], sent := (S1 w).sent ++ [render P1] }).set (!w) ((S (!w)).put [P2])
  have e2 : proc sem ws parse C S1 w = S2 := by
    have hq : (S1 w).queue = P1 :: [] := by simp [S1, set_self, Side.put, q1]
    have ho : S1 (!w) = S (!w) := set_other _ _ _ _ hne'
    rw [proc, hq]
    simp only
    rw [if_neg (by simp [P1]), if_pos (show P1.args.remote = true from rfl), ho]
    have : (recv sem ws parse (C (!w)) (S (!w)) (render P1)).1 = (S (!w)).put [P2] := by
      rw [r1, recv]
      show (runLine sem ws parse (C (!w)) (S (!w)) (.store 0) (join ["toggle".toList, ch, "-r".toList])).1 = _
      rw [runLine, p2]
      show (runStore sem (C (!w)) (S (!w)) 0 P2).1 = _
      have e : handle sem ((C (!w)).env 0) (hooksOf 0) ((S (!w)).σ 0) P2.args
          = ((S (!w)).σ 0, (hooksOf 0).map (fun h => ⟨h, none⟩), .ok (.success none)) :=
        (C37_remote sem _ _ _ _).1 (Or.inl rfl)
      rw [runStore, e]
      have : (fun j => if j = 0 then (S (!w)).σ 0 else (S (!w)).σ j) = (S (!w)).σ := by
        funext j; split
        · rename_i h; rw [h]
        · rfl
      simp only [this]; rfl
    rw [this]
  have hclean : Clean ws P2.args := ⟨by simpa [P2] using hch, by simp [P2]⟩
  have q3 : (S2 (!w)).queue = [P2] := by simp [S2, set_self, Side.put, q2]
  have hnn : (!(!w)) = w := Bool.not_not w
  obtain ⟨a1, -, a3, -, -⟩ := C87_effect sem ws hw parse hp C S2 (!w) P2 [] q3 rfl (by simp [P2]) hclean 0 (by rw [hnn]; rfl)
  rw [hnn] at a1
  have e3 : run sem ws parse C S [.line w .back line, .proc w, .proc (!w)] = proc sem ws parse C S2 (!w) := by
    show step sem ws parse C (step sem ws parse C (step sem ws parse C S (.line w .back line)) (.proc w)) (.proc (!w)) = _
    rw [e1]; show proc sem ws parse C (proc sem ws parse C S1 w) (!w) = _; rw [e2]
  have s2 : (S2 w).σ 0 = (S w).σ 0 := by
    simp only [S2]; rw [set_other _ _ _ _ hne, set_self]
    simp only [S1]; rw [set_self]; rfl
  have s3 : (S2 (!w)).σ = (S (!w)).σ := by simp only [S2]; rw [set_self]; rfl
  rw [e3]
  exact ⟨by rw [a1, s2]; rfl, by rw [a3, s3]⟩

/-! ### Concrete cases -/

instance (t : Str) : Decidable (Plain t) := by unfold Plain; infer_instance

def cmdOf (t : Str) : Option Cmd :=
  if t = cmdText .set then some .set else if t = cmdText .toggle then some .toggle
  else if t = cmdText .get then some .get else if t = cmdText .custom then some .custom else none

/-- The positional arguments, and whether `-f` and `-r` were given. -/
def scan : List Str → Option (List Str × Bool × Bool)
  | [] => some ([], false, false)
  | t :: r =>
    if t = "--".toList then some (r, false, false)
    else if t = "-f".toList then (scan r).map fun x => (x.1, true, x.2.2)
    else if t = "-r".toList then (scan r).map fun x => (x.1, x.2.1, true)
    else if Plain t then (scan r).map fun x => (t :: x.1, x.2.1, x.2.2)
    else none

/-- A parser that meets the laws (it knows no `-e`). -/
def demoParse (ts : List Str) : Option Parsed :=
  match scan ts with
  | some (c :: ch :: extra, f, r) => (cmdOf c).map fun cmd => ns cmd r f ch extra "default"
  | _ => none

theorem plain_ne {t : Str} (h : Plain t) : t ≠ "--".toList ∧ t ≠ "-f".toList ∧ t ≠ "-r".toList := by
  refine ⟨?_, ?_, ?_⟩ <;> (rintro rfl; revert h; decide)

theorem scan_plain (l : List Str) (h : ∀ x ∈ l, Plain x) : scan l = some (l, false, false) := by
  induction l with
  | nil => rfl
  | cons t l ih =>
    obtain ⟨h1, h2, h3⟩ := plain_ne (h t (by simp))
    rw [scan, if_neg h1, if_neg h2, if_neg h3, if_pos (h t (by simp)), ih (fun x hx => h x (by simp [hx]))]
    rfl

theorem cmdOf_text (c : Cmd) : cmdOf (cmdText c) = some c := by cases c <;> decide

theorem scan_cons (t : Str) (l : List Str) (h : Plain t) :
    scan (t :: l) = (scan l).map fun x => (t :: x.1, x.2.1, x.2.2) := by
  obtain ⟨h1, h2, h3⟩ := plain_ne h
  rw [scan, if_neg h1, if_neg h2, if_neg h3, if_pos h]

theorem plain_cmd (c : Cmd) : Plain (cmdText c) := by cases c <;> decide

theorem demo_laws : Laws demoParse := by
  refine ⟨?_, ?_, ?_⟩
  · intro cmd force ch extra hch hex
    have hs := scan_plain (ch :: extra) (by
      intro x hx; rcases List.mem_cons.mp hx with rfl | hx; exact hch; exact hex x hx)
    cases force
    · have : scan ([cmdText cmd] ++ (if false then ["-f".toList] else []) ++ [ch] ++ extra)
          = some (cmdText cmd :: ch :: extra, false, false) := by
        show scan (cmdText cmd :: (ch :: extra)) = _
        rw [scan_cons _ _ (plain_cmd cmd), hs]; rfl
      rw [demoParse]
      simp only [Bool.false_eq_true] at this ⊢
      rw [this]
      simp only [cmdOf_text, Option.map_some]
    · have : scan ([cmdText cmd] ++ (if true then ["-f".toList] else []) ++ [ch] ++ extra)
          = some (cmdText cmd :: ch :: extra, true, false) := by
        show scan (cmdText cmd :: ("-f".toList :: (ch :: extra))) = _
        rw [scan_cons _ _ (plain_cmd cmd), scan, if_neg (by decide), if_pos rfl, hs]; rfl
      rw [demoParse]
      simp only [] at this ⊢
      rw [this]
      simp only [cmdOf_text, Option.map_some]
  · intro cmd ch hch
    have : scan [cmdText cmd, ch, "-r".toList] = some ([cmdText cmd, ch], false, true) := by
      rw [scan_cons _ _ (plain_cmd cmd), scan_cons _ _ hch]; rfl
    rw [demoParse, this]; simp only [cmdOf_text, Option.map_some]
  · intro cmd ch x hch
    have : scan [cmdText cmd, ch, "--".toList, x] = some ([cmdText cmd, ch, x], false, false) := by
      rw [scan_cons _ _ (plain_cmd cmd), scan_cons _ _ hch]; rfl
    rw [demoParse, this]; simp only [cmdOf_text, Option.map_some]

def demoWs (c : Char) : Bool := c == ' ' || c == '\t' || c == '\n'

theorem demo_space : Space demoWs := by
  refine ⟨by decide, fun c h => ?_⟩
  simp only [demoWs, Bool.or_eq_false_iff, beq_eq_false_iff_ne]
  rcases h with h | rfl
  · refine ⟨⟨?_, ?_⟩, ?_⟩ <;> (rintro rfl; revert h; decide)
  · decide

def demoCfg : Bool → Cfg := fun _ => ⟨fun _ => demoEnv, [("peer", .back), ("other", .store 1)]⟩
def demoSys : Sys := fun _ => ⟨fun _ => demoState, [], [], []⟩

/-- Two programs with the environment of C37: a forced toggle of `b` for the peer, which is not
commandable, then a set of `a`; a plain toggle, which the peer refuses; the line that bounces. -/
theorem C87_cases :
    (let S := run demoSem demoWs demoParse demoCfg demoSys
      [.line false .back "toggle  -f b".toList, .line false .back "set a on".toList, .proc false, .proc true, .proc false]
     (S true).σ 0 1 = .bool true ∧ (S true).σ 0 0 = .int 7 ∧ (S false).σ 0 1 = .bool false ∧ (S false).queue.length = 0) ∧
    ((run demoSem demoWs demoParse demoCfg demoSys [.line false .back "toggle b".toList, .proc false]) true).σ 0 1
      = .bool false ∧
    (recv demoSem demoWs demoParse (demoCfg true) (demoSys true) ⟨"toggle b".toList, "default"⟩).2 = some false ∧
    -- `-1.5` is no flag
    Plain "-1.5".toList ∧ ¬ Plain "-x".toList ∧
    (∀ v, Fresh (demoSys v)) := by
  refine ⟨by decide +kernel, by decide +kernel, by decide +kernel, by decide, by decide, fun _ => ⟨rfl, rfl, rfl⟩⟩

end Verif.Environment.Remote
