import Verif.Json.Peers
/-!
C47: the handlers of `JsonMessageInterface` (message/interface.py 118–163, message/handlers.py), and
which messages without an identifier die out.

A message without the reserved keys is a record: one field per handled key, saying whether the key is
present and the part of its value the handlers look at. Whether the values satisfy the schemas of the
typed handlers is left out (a value that does not raises).
-/
namespace Verif.Json

/-- A message's handled keys. `loopback` holds the value (a dictionary; empty counts as `[]`), `poll` its
`loopback` count (0 if absent), `command` and `find` their `is_request`, `unknown` whether there are
other keys, `ignored` whether there is a key `keys_ignored`. -/
structure Body where
  loopback : Option (List (List Char))
  poll : Option Int
  meta' : Bool
  command : Option Bool
  find : Option Bool
  unknown : Bool
  ignored : Bool
  deriving DecidableEq

/-- Whether the peer's metadata is known (`remote_meta`). -/
abbrev MetaKnown := Bool

/-- `loopback_handler`, handlers.py 62–65, an empty sub-response being dropped (interface.py 373–375). -/
def loopbackReply (v : Option (List (List Char))) : Option (List (List Char)) :=
  match v with
  | some v => if v = [] then none else some v
  | none => none

/-- `_poll_handler`, interface.py 118–128. -/
def pollReply (p : Option Int) : Option Int :=
  match p with
  | some n => if 0 < n then some (n - 1) else none
  | none => none

/-- `channel_env_handler` (handlers.py 34–57) and `find_file_request_handler` (87–124): only requests are
answered, and the answer is not a request. -/
def requestReply (r : Option Bool) : Option Bool :=
  match r with
  | some true => some false
  | _ => none

/-- The sub-responses promoted to the response, interface.py 339–379, with `_meta_handler` (144–163) and
the list of ignored keys. -/
def respond (known : MetaKnown) (m : Body) : MetaKnown × Body :=
  (known || m.meta',
   { loopback := loopbackReply m.loopback
     poll := pollReply m.poll
     meta' := m.meta' && !known
     command := requestReply m.command
     find := requestReply m.find
     unknown := false
     ignored := m.unknown })

/-- Whether there is nothing to say. -/
def Body.isEmpty (m : Body) : Bool :=
  m.loopback.isNone && m.poll.isNone && !m.meta' && m.command.isNone && m.find.isNone && !m.unknown && !m.ignored

/-- What a poll can still cause. -/
def pollWeight (p : Option Int) : Nat := match p with | some n => n.toNat + 1 | none => 0

/-- What a request or its answer can still cause. -/
def requestWeight (r : Option Bool) : Nat := match r with | some true => 2 | some false => 1 | none => 0

/-- What metadata can still cause. -/
def metaWeight (m : Bool) (known : Bool → MetaKnown) : Nat :=
  if m then 1 + (if known true then 0 else 1) + (if known false then 0 else 1) else 0

/-- What a message without loopback can still cause. -/
def Body.weight (m : Body) (known : Bool → MetaKnown) : Nat :=
  pollWeight m.poll + metaWeight m.meta' known + requestWeight m.command + requestWeight m.find +
  ((if m.unknown then 2 else 0) + (if m.ignored then 1 else 0))

/-- A message without identifier travelling from `s`, alone; each delivery sends at most one. -/
def travel : Nat → Bool → (Bool → MetaKnown) → Body → Nat
  | 0, _, _, _ => 0
  | n + 1, s, known, m =>
    let r := respond (known (!s)) m
    let known' := fun t => if t = !s then r.1 else known t
    if r.2.isEmpty then 0 else 1 + travel n (!s) known' r.2

theorem poll_weight (p : Option Int) :
    pollWeight (pollReply p) + (if (pollReply p).isSome then 1 else 0) ≤ pollWeight p := by
  cases p with
  | none => simp [pollReply, pollWeight]
  | some n =>
    by_cases h : 0 < n
    · have e : pollReply (some n) = some (n - 1) := if_pos h
      rw [e]
      show (n - 1).toNat + 1 + 1 ≤ n.toNat + 1
      omega
    · have e : pollReply (some n) = none := if_neg h
      rw [e]
      simp [pollWeight]

theorem request_weight (r : Option Bool) :
    requestWeight (requestReply r) + (if (requestReply r).isSome then 1 else 0) ≤ requestWeight r := by
  rcases r with _ | _ | _ <;> decide

theorem meta_weight (s : Bool) (known : Bool → MetaKnown) (m : Bool) :
    metaWeight (m && !known (!s)) (fun t => if t = !s then (known (!s) || m) else known t) +
      (if (m && !known (!s)) then 1 else 0) ≤ metaWeight m known := by
  unfold metaWeight
  cases m <;> cases s <;> cases h1 : known true <;> cases h2 : known false <;> simp_all

theorem weight_respond (s : Bool) (known : Bool → MetaKnown) (m : Body) (hl : m.loopback = none) :
    (respond (known (!s)) m).2.loopback = none ∧
    ((respond (known (!s)) m).2.isEmpty = false →
      (respond (known (!s)) m).2.weight (fun t => if t = !s then (respond (known (!s)) m).1 else known t) <
        m.weight known) := by
  have h1 := poll_weight m.poll
  have h2 := request_weight m.command
  have h3 := request_weight m.find
  have h4 := meta_weight s known m.meta'
  refine ⟨by simp [respond, hl, loopbackReply], ?_⟩
  intro hne
  have hlb : loopbackReply m.loopback = none := by rw [hl]; rfl
  simp only [Body.weight, respond, Body.isEmpty, hlb] at hne ⊢
  cases hp : (pollReply m.poll).isSome <;> cases hc : (requestReply m.command).isSome <;>
    cases hf : (requestReply m.find).isSome <;> cases hm : (m.meta' && !known (!s)) <;>
    cases hu : m.unknown <;> cases m.ignored <;>
    simp only [hp, hc, hf, hm, hu] at h1 h2 h3 h4 hne ⊢ <;>
    simp [← Option.not_isSome, hp, hc, hf] at h1 h2 h3 h4 hne ⊢ <;> omega

/-- C47. A request for a command or a file is answered, whatever else the message holds, and the answer is no
request: it is not answered again. -/
theorem C47_answered (known known' : MetaKnown) (m : Body) :
    ((respond known m).2.command = some false ↔ m.command = some true) ∧
    ((respond known m).2.find = some false ↔ m.find = some true) ∧
    (m.command = some true ∨ m.find = some true → (respond known m).2.isEmpty = false) ∧
    (respond known' (respond known m).2).2.command = none ∧ (respond known' (respond known m).2).2.find = none := by
  obtain ⟨_, _, _, c, f, _, _⟩ := m
  rcases c with _ | _ | _ <;> rcases f with _ | _ | _ <;> simp [respond, requestReply, Body.isEmpty]

/-- C47. A message without identifier and without loopback dies out: however long one watches, it causes
at most its weight in messages (a poll with count `n` at most `n + 1`, metadata at most three, an
unknown key, command or file request two). -/
theorem C47_dies_out_partial (n : Nat) (s : Bool) (known : Bool → MetaKnown) (m : Body) (hl : m.loopback = none) :
    travel n s known m ≤ m.weight known := by
  induction n generalizing s known m with
  | zero => exact Nat.zero_le _
  | succ n ih =>
    obtain ⟨h1, h2⟩ := weight_respond s known m hl
    simp only [travel]
    split
    · exact Nat.zero_le _
    · rename_i hne
      have hne : (respond (known (!s)) m).2.isEmpty = false := by simpa using hne
      have := ih (!s) (fun t => if t = !s then (respond (known (!s)) m).1 else known t) _ h1
      have := h2 hne
      omega

/-- C47 fails for a loopback without identifier: `n` deliveries cause `n` messages, for every `n`, any
value and whatever the rest of the message. -/
theorem C47_bare_loopback_fails (n : Nat) (s : Bool) (known : Bool → MetaKnown) (m : Body) (v : List (List Char))
    (hv : v ≠ []) (hl : m.loopback = some v) : travel n s known m = n := by
  induction n generalizing s known m with
  | zero => rfl
  | succ n ih =>
    have h1 : (respond (known (!s)) m).2.loopback = some v := by simp [respond, hl, loopbackReply, hv]
    have h2 : (respond (known (!s)) m).2.isEmpty = false := by simp [Body.isEmpty, h1]
    simp only [travel, h2]
    rw [ih _ _ _ h1]
    simp
    omega

example : travel 10 true (fun _ => false) ⟨none, some 3, true, none, some true, true, false⟩ = 3 ∧
    travel 10 true (fun _ => false) ⟨some ["a".toList], none, false, none, none, false, false⟩ = 10 := by decide +kernel

end Verif.Json
