import Verif.Json.Browser
import Verif.Json.Exchange
/-!
C107: the conversation of a server's JSON connection (`End`, C45) with a browser (C106): every request of the server is
answered once, with the loopback it carried, and the traffic dies out, unless the server sends a loopback without
identifier.

Both directions are queues (a websocket keeps the order). A message is its identifier and the other keys; the values
are abstract. The server's handlers are any function of its state, as in C45.
-/
namespace Verif.Json.Browser

variable {S V : Type}

/-- The other keys of a message. -/
abbrev Content (V : Type) := List (List Char × V)

/-- The object on the wire: the identifier is a key like the others. -/
def object (inj : Int → V) (m : Msg (Content V)) : List (List Char × V) :=
  (m.id.map (fun i => ("__id__".toList, inj i))).toList ++ m.content

/-- The loopback of a message. -/
def loopback (c : Content V) : Option V := dget c "loopback".toList

/-- A message with nothing but the loopback. -/
def only (c : Content V) : Content V := ((loopback c).map (fun v => ("loopback".toList, v))).toList

/-- The browser's answer, JsonConnection.js 38–62, for messages no handler throws on. -/
def reply (m : Msg (Content V)) : Option (Msg (Content V)) :=
  if m.id = none ∧ loopback m.content = none then none else some ⟨m.id, only m.content⟩

/-- C107. `reply` is what `handle_json` sends. -/
theorem C107_reply (inj : Int → V) (handlers : List (List Char)) (throws : List Char → V → Bool) (m : Msg (Content V))
    (hid : dget m.content "__id__".toList = none)
    (ht : ∀ p ∈ object inj m, p.1 ∈ handlers → throws p.1 p.2 = false)
    (hu : ∀ p ∈ object inj m, p.1 ∉ handlers → p.1 ∉ uncallable) :
    (handleJson handlers throws (object inj m)).sent = (reply m).map (object inj) := by
  have hl := loop_done handlers throws (object inj m) ht hu
  have hr : (handleJson handlers throws (object inj m)).sent =
      if response (object inj m) = [] then none else some (response (object inj m)) := by
    unfold handleJson; rw [hl]
  rw [hr, response_eq]
  unfold reply object only loopback
  have hne : "__id__".toList ≠ "loopback".toList := by decide
  revert hne hid
  generalize "__id__".toList = a
  generalize "loopback".toList = b
  intro hid hne
  obtain ⟨i, c⟩ := m
  simp only [dget_append] at *
  cases i <;> cases h : dget c b <;> simp [dget_cons, dget_nil, hid, hne]

/-- The two ends and what travels between them. `asked` and `got` record the requests made and the answers taken;
`sent` counts the messages. -/
structure Sys (S V : Type) where
  server : End S (Content V)
  toBrowser : List (Msg (Content V))
  toServer : List (Msg (Content V))
  asked : List (Int × Content V)
  got : List (Int × Content V)
  sent : Nat

/-- What can happen: the server asks (`wait_json`) or says something (`send_json`), the page sends what its user or
its animation loop causes (worker.js 68–70, 96–99), the next message arrives at an end, a call of `wait_json` goes
on or gives up. -/
inductive Op (V : Type) where
  | ask (q : Content V)
  | say (q : Content V)
  | page (c : Content V)
  | atBrowser
  | atServer
  | resume (i : Int)
  | expire (i : Int)

/-- One step. -/
def Sys.step (h : S → Content V → S × Content V) (isEmpty : Content V → Bool) (s : Sys S V) : Op V → Sys S V
  | .ask q =>
    match (s.server.ask q).2 with
    | .ok m => { s with server := (s.server.ask q).1, toBrowser := s.toBrowser ++ [m],
                        asked := s.asked ++ [(s.server.next, q)], sent := s.sent + 1 }
    | .error _ => { s with server := (s.server.ask q).1 }
  | .say q => { s with toBrowser := s.toBrowser ++ [⟨none, q⟩], sent := s.sent + 1 }
  | .page c => { s with toServer := s.toServer ++ [⟨none, c⟩], sent := s.sent + 1 }
  | .atBrowser =>
    match s.toBrowser with
    | [] => s
    | m :: rest =>
      match reply m with
      | none => { s with toBrowser := rest }
      | some r => { s with toBrowser := rest, toServer := s.toServer ++ [r], sent := s.sent + 1 }
  | .atServer =>
    match s.toServer with
    | [] => s
    | m :: rest =>
      let r := s.server.recv h isEmpty m
      let got := match m.id with
        | some i => if i ∈ s.server.waiting then s.got ++ [(i, m.content)] else s.got
        | none => s.got
      match r.2 with
      | none => { s with server := r.1, toServer := rest, got := got }
      | some o => { s with server := r.1, toServer := rest, got := got, toBrowser := s.toBrowser ++ [o], sent := s.sent + 1 }
  | .resume i => { s with server := (s.server.resume i).1 }
  | .expire i => { s with server := s.server.expire i }

/-- A run. -/
def Sys.run (h : S → Content V → S × Content V) (isEmpty : Content V → Bool) (s : Sys S V) (os : List (Op V)) : Sys S V :=
  os.foldl (Sys.step h isEmpty) s

/-- A new connection. -/
def Sys.new (start : Int) (st : S) : Sys S V := ⟨End.new start st, [], [], [], [], 0⟩

/-- Neither the server nor the page sends a loopback without identifier. -/
def Plain : Op V → Prop
  | .say q => loopback q = none
  | .page c => loopback c = none
  | _ => True

/-- What a step may cost: a request and its answer, a message of the page and its answer, a message of the server. -/
def Op.cost : Op V → Nat
  | .ask _ => 2
  | .page _ => 2
  | .say _ => 1
  | _ => 0

/-- The identifiers of some messages. -/
def ids (l : List (Msg (Content V))) : List Int := l.filterMap Msg.id

/-- Messages without identifier. -/
def bare (l : List (Msg (Content V))) : Nat := (l.filter (fun m => m.id.isNone)).length

theorem ids_append (a b : List (Msg (Content V))) : ids (a ++ b) = ids a ++ ids b := List.filterMap_append
theorem ids_nil : ids ([] : List (Msg (Content V))) = [] := rfl
theorem ids_some (i : Int) (c : Content V) (l) : ids (⟨some i, c⟩ :: l) = i :: ids l := rfl
theorem ids_none (c : Content V) (l) : ids (⟨none, c⟩ :: l) = ids l := rfl
theorem bare_append (a b : List (Msg (Content V))) : bare (a ++ b) = bare a + bare b := by simp [bare]
theorem bare_nil : bare ([] : List (Msg (Content V))) = 0 := rfl
theorem bare_some (i : Int) (c : Content V) (l) : bare (⟨some i, c⟩ :: l) = bare l := by simp [bare]
theorem bare_none (c : Content V) (l) : bare (⟨none, c⟩ :: l) = bare l + 1 := by simp [bare]

/-- What holds in every state. -/
structure Inv (s : Sys S V) (cost : Nat) : Prop where
  nodup : (ids s.toBrowser ++ ids s.toServer).Nodup
  waiting : ∀ i, i ∈ s.server.waiting ↔ i ∈ ids s.toBrowser ∨ i ∈ ids s.toServer
  fresh : ∀ p ∈ s.asked, p.1 < s.server.next
  plainB : ∀ m ∈ s.toBrowser, m.id = none → loopback m.content = none
  plainS : ∀ m ∈ s.toServer, m.id = none → loopback m.content = none
  count : s.sent + (ids s.toBrowser).length + bare s.toServer ≤ cost
  askedNodup : (s.asked.map Prod.fst).Nodup
  asked : ∀ p ∈ s.asked, (⟨some p.1, p.2⟩ : Msg _) ∈ s.toBrowser ∨ (⟨some p.1, only p.2⟩ : Msg _) ∈ s.toServer ∨ (p.1, only p.2) ∈ s.got
  srcB : ∀ m ∈ s.toBrowser, ∀ i, m.id = some i → (i, m.content) ∈ s.asked
  srcS : ∀ m ∈ s.toServer, ∀ i, m.id = some i → ∃ q, (i, q) ∈ s.asked ∧ m.content = only q
  got : ∀ p ∈ s.got, ∃ q, (p.1, q) ∈ s.asked ∧ p.2 = only q
  gotNodup : (s.got.map Prod.fst).Nodup
  gotApart : ∀ p ∈ s.got, p.1 ∉ s.server.waiting
  resp : ∀ i c, dget s.server.responses i = some c → (i, c) ∈ s.got

theorem inv_new (start : Int) (st : S) : Inv (Sys.new start st : Sys S V) 0 := by
  constructor <;> simp [Sys.new, End.new, ids, bare, dget_nil]

theorem mem_ids {i : Int} {l : List (Msg (Content V))} : i ∈ ids l ↔ ∃ m ∈ l, m.id = some i := List.mem_filterMap

theorem inv_ask (h : S → Content V → S × Content V) (isEmpty : Content V → Bool) (s : Sys S V) (n : Nat) (hi : Inv s n)
    (q : Content V) : Inv (s.step h isEmpty (.ask q)) (n + 2) := by
  have hw : s.server.next ∉ s.server.waiting := by
    intro hw
    rcases (hi.waiting _).mp hw with hw | hw
    · obtain ⟨m, hm, hid⟩ := mem_ids.mp hw
      have := hi.fresh _ (hi.srcB m hm _ hid)
      simp at this
    · obtain ⟨m, hm, hid⟩ := mem_ids.mp hw
      obtain ⟨q', hq, -⟩ := hi.srcS m hm _ hid
      have := hi.fresh _ hq
      simp at this
  have hn : s.server.next ∉ ids s.toBrowser ∧ s.server.next ∉ ids s.toServer := by
    have := hi.waiting s.server.next
    grind
  have ha : ∀ c, (s.server.next, c) ∉ s.asked := by
    intro c hc
    have := hi.fresh _ hc
    simp at this
  have he : s.step h isEmpty (.ask q) = { s with
      server := { s.server with next := s.server.next + 2, waiting := s.server.waiting ++ [s.server.next],
                                pending := s.server.pending ++ [s.server.next] },
      toBrowser := s.toBrowser ++ [⟨some s.server.next, q⟩], asked := s.asked ++ [(s.server.next, q)],
      sent := s.sent + 1 } := by
    simp only [Sys.step, End.ask, nextId, hw, if_false]
  rw [he]
  obtain ⟨i1, i2, i3, i4, i5, i6, i7, i8, i9, i10, i11, i12, i13, i14⟩ := hi
  constructor
  · simp only [ids_append, ids_some, ids_nil]; grind
  · simp only [ids_append, ids_some, ids_nil]; grind
  · grind
  · grind
  · grind
  · simp only [ids_append, ids_some, ids_nil, List.length_append, List.length_cons, List.length_nil]; omega
  · simp only [List.map_append, List.map_cons, List.map_nil]
    rw [List.nodup_append]
    refine ⟨i7, by simp, ?_⟩
    intro a ha' b hb
    obtain ⟨p, hp, rfl⟩ := List.mem_map.mp ha'
    have := i3 p hp
    simp only [List.mem_singleton] at hb
    subst hb
    omega
  · intro p hp
    rcases List.mem_append.mp hp with hp | hp
    · rcases i8 p hp with h | h | h
      · exact .inl (List.mem_append_left _ h)
      · exact .inr (.inl h)
      · exact .inr (.inr h)
    · simp only [List.mem_singleton] at hp
      subst hp
      exact .inl (by simp)
  · intro m hm i hid
    rcases List.mem_append.mp hm with hm | hm
    · exact List.mem_append_left _ (i9 m hm i hid)
    · simp only [List.mem_singleton] at hm
      subst hm
      cases hid
      simp
  · intro m hm i hid
    obtain ⟨q', h1, h2⟩ := i10 m hm i hid
    exact ⟨q', List.mem_append_left _ h1, h2⟩
  · intro p hp
    obtain ⟨q', h1, h2⟩ := i11 p hp
    exact ⟨q', List.mem_append_left _ h1, h2⟩
  · exact i12
  · intro p hp
    obtain ⟨q', h1, h2⟩ := i11 p hp
    have := i3 _ h1
    have := i13 p hp
    simp only [List.mem_append, List.mem_singleton]
    rintro (h | h)
    · contradiction
    · simp only at *; omega
  · exact i14

theorem inv_say (h : S → Content V → S × Content V) (isEmpty : Content V → Bool) (s : Sys S V) (n : Nat) (hi : Inv s n)
    (q : Content V) (hq : loopback q = none) : Inv (s.step h isEmpty (.say q)) (n + 1) := by
  obtain ⟨i1, i2, i3, i4, i5, i6, i7, i8, i9, i10, i11, i12, i13, i14⟩ := hi
  unfold Sys.step
  constructor <;> simp only [ids_append, ids_none, ids_nil, List.append_nil]
  all_goals first | assumption | skip
  · grind
  · omega
  · grind
  · grind

theorem inv_page (h : S → Content V → S × Content V) (isEmpty : Content V → Bool) (s : Sys S V) (n : Nat) (hi : Inv s n)
    (q : Content V) (hq : loopback q = none) : Inv (s.step h isEmpty (.page q)) (n + 2) := by
  obtain ⟨i1, i2, i3, i4, i5, i6, i7, i8, i9, i10, i11, i12, i13, i14⟩ := hi
  unfold Sys.step
  constructor <;> simp only [ids_append, ids_none, ids_nil, List.append_nil, bare_append, bare_none, bare_nil]
  all_goals first | assumption | skip
  · grind
  · omega
  · grind
  · grind

theorem inv_atBrowser (h : S → Content V → S × Content V) (isEmpty : Content V → Bool) (s : Sys S V) (n : Nat) (hi : Inv s n) :
    Inv (s.step h isEmpty .atBrowser) n := by
  unfold Sys.step
  cases hb : s.toBrowser with
  | nil => simp only []; exact hi
  | cons m rest =>
    obtain ⟨i1, i2, i3, i4, i5, i6, i7, i8, i9, i10, i11, i12, i13, i14⟩ := hi
    rw [hb] at i1 i2 i4 i6 i8 i9
    obtain ⟨mid, c⟩ := m
    cases mid with
    | none =>
      have hl := i4 _ List.mem_cons_self rfl
      have hr : reply (⟨none, c⟩ : Msg (Content V)) = none := by unfold reply; rw [if_pos ⟨rfl, hl⟩]
      simp only [hr]
      simp only [ids_none] at i1 i2 i6
      constructor
      all_goals first | assumption | skip
      · grind
      · grind
      · grind
    | some i =>
      have hr : reply (⟨some i, c⟩ : Msg (Content V)) = some ⟨some i, only c⟩ := by unfold reply; simp
      simp only [hr]
      simp only [ids_some] at i1 i2 i6
      have hc := i9 _ List.mem_cons_self i rfl
      constructor <;> simp only [ids_append, ids_some, ids_nil, List.append_nil, bare_append, bare_some, bare_nil]
      all_goals first | assumption | skip
      · grind
      · grind
      · grind
      · grind
      · simp only [List.length_cons] at i6; omega
      · intro p hp
        rcases i8 p hp with h | h | h
        · rcases List.mem_cons.mp h with h | h
          · cases h; exact .inr (.inl (by simp))
          · exact .inl h
        · exact .inr (.inl (List.mem_append_left _ h))
        · exact .inr (.inr h)
      · grind
      · intro m hm j hj
        rcases List.mem_append.mp hm with hm | hm
        · exact i10 m hm j hj
        · simp only [List.mem_singleton] at hm
          subst hm
          cases hj
          exact ⟨c, hc, rfl⟩

theorem inv_atServer (h : S → Content V → S × Content V) (isEmpty : Content V → Bool)
    (hl : ∀ st c, loopback c = none → loopback (h st c).2 = none) (s : Sys S V) (n : Nat) (hi : Inv s n) :
    Inv (s.step h isEmpty .atServer) n := by
  unfold Sys.step
  cases hb : s.toServer with
  | nil => simp only []; exact hi
  | cons m rest =>
    obtain ⟨i1, i2, i3, i4, i5, i6, i7, i8, i9, i10, i11, i12, i13, i14⟩ := hi
    rw [hb] at i1 i2 i5 i6 i8 i10
    obtain ⟨mid, c⟩ := m
    cases mid with
    | none =>
      have hp := i5 _ List.mem_cons_self rfl
      simp only [ids_none, bare_none] at i1 i2 i6
      simp only [End.recv]
      cases he : isEmpty (h s.server.state c).2
      · simp only [Bool.false_eq_true, if_false]
        have hl' := hl s.server.state c hp
        constructor <;> simp only [ids_append, ids_none, ids_nil, List.append_nil]
        all_goals first | assumption | skip
        · grind
        · grind
        · omega
        · grind
        · grind
        · grind
      · simp only [if_true]
        constructor
        all_goals first | assumption | skip
        · grind
        · dsimp only; omega
        · grind
        · grind
    | some i =>
      simp only [ids_some, bare_some] at i1 i2 i6
      have hw : i ∈ s.server.waiting := (i2 i).mpr (.inr List.mem_cons_self)
      obtain ⟨q, hq1, hq2⟩ := i10 _ List.mem_cons_self i rfl
      simp only at hq2
      have hni : i ∉ ids s.toBrowser ∧ i ∉ ids rest := by grind
      simp only [End.recv, hw, if_true]
      constructor
      all_goals first | assumption | skip
      · grind
      · intro j; simp only [List.mem_filter, i2 j, List.mem_cons]; grind
      · grind
      · dsimp only
        intro p hp
        rcases i8 p hp with h | h | h
        · exact .inl h
        · rcases List.mem_cons.mp h with h | h
          · cases h; exact .inr (.inr (by simp))
          · exact .inr (.inl h)
        · exact .inr (.inr (List.mem_append_left _ h))
      · grind
      · intro p hp
        rcases List.mem_append.mp hp with hp | hp
        · exact i11 p hp
        · simp only [List.mem_singleton] at hp
          subst hp
          exact ⟨q, hq1, hq2⟩
      · simp only [List.map_append, List.map_cons, List.map_nil]
        rw [List.nodup_append]
        refine ⟨i12, by simp, ?_⟩
        intro a ha b hb' hab
        obtain ⟨p, hp, rfl⟩ := List.mem_map.mp ha
        simp only [List.mem_singleton] at hb'
        subst hb'
        have := i13 p hp
        rw [hab] at this
        contradiction
      · intro p hp
        simp only [List.mem_filter]
        rcases List.mem_append.mp hp with hp | hp
        · have := i13 p hp; grind
        · simp only [List.mem_singleton] at hp
          subst hp
          simp
      · intro j c' hj
        rw [dget_dset] at hj
        by_cases hji : i = j
        · subst hji; simp at hj; subst hj; simp
        · grind

theorem inv_step (h : S → Content V → S × Content V) (isEmpty : Content V → Bool)
    (hl : ∀ st c, loopback c = none → loopback (h st c).2 = none) (s : Sys S V) (n : Nat) (hi : Inv s n) (o : Op V)
    (ho : Plain o) : Inv (s.step h isEmpty o) (n + o.cost) := by
  cases o with
  | ask q => exact inv_ask h isEmpty s n hi q
  | say q => exact inv_say h isEmpty s n hi q ho
  | page q => exact inv_page h isEmpty s n hi q ho
  | atBrowser => exact inv_atBrowser h isEmpty s n hi
  | atServer => exact inv_atServer h isEmpty hl s n hi
  | resume i =>
    have hw : (s.server.resume i).1.waiting = s.server.waiting ∧ (s.server.resume i).1.next = s.server.next := by
      unfold End.resume; split <;> exact ⟨rfl, rfl⟩
    have hr : ∀ j c, dget (s.server.resume i).1.responses j = some c → dget s.server.responses j = some c := by
      intro j c hj
      unfold End.resume at hj
      split at hj
      · exact hj
      · simp only [dget_dpop] at hj
        grind
    obtain ⟨i1, i2, i3, i4, i5, i6, i7, i8, i9, i10, i11, i12, i13, i14⟩ := hi
    unfold Sys.step
    constructor <;> simp only [hw.1, hw.2, Op.cost, Nat.add_zero] <;> first | assumption | skip
    exact fun j c hj => i14 j c (hr j c hj)
  | expire i =>
    obtain ⟨i1, i2, i3, i4, i5, i6, i7, i8, i9, i10, i11, i12, i13, i14⟩ := hi
    unfold Sys.step End.expire
    constructor <;> simp only [Op.cost, Nat.add_zero] <;> assumption

theorem run_cons (h : S → Content V → S × Content V) (isEmpty : Content V → Bool) (s : Sys S V) (o : Op V) (os : List (Op V)) :
    s.run h isEmpty (o :: os) = (s.step h isEmpty o).run h isEmpty os := rfl

/-- What a sequence of steps may cost. -/
def total (os : List (Op V)) : Nat := (os.map Op.cost).sum

theorem inv_run (h : S → Content V → S × Content V) (isEmpty : Content V → Bool)
    (hl : ∀ st c, loopback c = none → loopback (h st c).2 = none) (os : List (Op V)) (ho : ∀ o ∈ os, Plain o)
    (s : Sys S V) (n : Nat) (hi : Inv s n) : Inv (s.run h isEmpty os) (n + total os) := by
  induction os generalizing s n with
  | nil => exact hi
  | cons o os ih =>
    rw [run_cons]
    have := ih (fun x hx => ho x (List.mem_cons_of_mem _ hx)) _ _ (inv_step h isEmpty hl s n hi o (ho o List.mem_cons_self))
    have ht : total (o :: os) = o.cost + total os := rfl
    rw [ht, ← Nat.add_assoc]
    exact this

/-- C107. In every state of a conversation in which no loopback is sent without identifier: the requests have different
identifiers; whatever has been taken as an answer, or a call of `wait_json` returns, is the loopback of the request
with this identifier and nothing else; each request is answered at most once; once nothing is under way any more,
each has been. -/
theorem C107_answers (h : S → Content V → S × Content V) (isEmpty : Content V → Bool)
    (hl : ∀ st c, loopback c = none → loopback (h st c).2 = none) (start : Int) (st : S) (os : List (Op V))
    (ho : ∀ o ∈ os, Plain o) :
    let s := (Sys.new start st).run h isEmpty os
    (s.asked.map Prod.fst).Nodup ∧ (s.got.map Prod.fst).Nodup ∧
    (∀ p ∈ s.got, ∃ q, (p.1, q) ∈ s.asked ∧ p.2 = only q) ∧
    (∀ i c, (s.server.resume i).2 = .ok c → ∃ q, (i, q) ∈ s.asked ∧ c = only q) ∧
    (s.toBrowser = [] → s.toServer = [] → s.server.waiting = [] ∧ ∀ p ∈ s.asked, (p.1, only p.2) ∈ s.got) := by
  have hi := inv_run h isEmpty hl os ho _ _ (inv_new start st)
  intro s
  refine ⟨hi.askedNodup, hi.gotNodup, hi.got, ?_, ?_⟩
  · intro i c hc
    have : dget s.server.responses i = some c := by
      unfold End.resume at hc
      split at hc
      · cases hc
      · rename_i c' h'; cases hc; exact h'
    exact hi.got _ (hi.resp i c this)
  · intro hb hs
    refine ⟨?_, ?_⟩
    · apply List.eq_nil_iff_forall_not_mem.mpr
      intro i hw
      have := (hi.waiting i).mp hw
      change i ∈ ids s.toBrowser ∨ i ∈ ids s.toServer at this
      rw [hb, hs] at this
      simp [ids] at this
    · intro p hp
      have := hi.asked p hp
      change _ ∈ s.toBrowser ∨ _ ∈ s.toServer ∨ _ at this
      rw [hb, hs] at this
      simpa using this

theorem only_single (v : V) : only [("loopback".toList, v)] = [("loopback".toList, v)] := by
  unfold only loopback
  generalize "loopback".toList = a
  simp [dget_cons]

theorem only_other (c : Content V) (k : List Char) (hk : k ≠ "loopback".toList) : dget (only c) k = none := by
  unfold only
  revert hk
  generalize "loopback".toList = a
  intro hk
  cases loopback c <;> simp [dget_cons, dget_nil, Ne.symm hk]

theorem asked_unique {l : List (Int × Content V)} (hn : (l.map Prod.fst).Nodup) {i : Int} {a b : Content V}
    (ha : (i, a) ∈ l) (hb : (i, b) ∈ l) : a = b := by
  induction l with
  | nil => cases ha
  | cons p l ih =>
    rw [List.map_cons, List.nodup_cons] at hn
    rcases List.mem_cons.mp ha with ha | ha <;> rcases List.mem_cons.mp hb with hb | hb
    · rw [← ha] at hb; cases hb; rfl
    · exact absurd (List.mem_map.mpr ⟨_, hb, by rw [← ha]⟩) hn.1
    · exact absurd (List.mem_map.mpr ⟨_, ha, by rw [← hb]⟩) hn.1
    · exact ih hn.2 ha hb

/-- C107. The loopback test with which a connection starts succeeds with a browser (interface.py 287–295: the answer
equals the message sent). -/
theorem C107_loopback_test (h : S → Content V → S × Content V) (isEmpty : Content V → Bool)
    (hl : ∀ st c, loopback c = none → loopback (h st c).2 = none) (start : Int) (st : S) (os : List (Op V))
    (ho : ∀ o ∈ os, Plain o) (i : Int) (v : V) (c : Content V)
    (ha : (i, [("loopback".toList, v)]) ∈ ((Sys.new start st).run h isEmpty os).asked)
    (hc : (((Sys.new start st).run h isEmpty os).server.resume i).2 = .ok c) : c = [("loopback".toList, v)] := by
  obtain ⟨h1, -, -, h4, -⟩ := C107_answers h isEmpty hl start st os ho
  obtain ⟨q, hq1, rfl⟩ := h4 i c hc
  rw [asked_unique h1 hq1 ha]
  exact only_single v

/-- C107 fails for other requests: an answer of a browser has no other key, so that a channel command or a search for
a file sent to one ends with a `KeyError` (interface.py 319–322). -/
theorem C107_command_fails (h : S → Content V → S × Content V) (isEmpty : Content V → Bool)
    (hl : ∀ st c, loopback c = none → loopback (h st c).2 = none) (start : Int) (st : S) (os : List (Op V))
    (ho : ∀ o ∈ os, Plain o) (i : Int) (c : Content V)
    (hc : (((Sys.new start st).run h isEmpty os).server.resume i).2 = .ok c) (k : List Char) (hk : k ≠ "loopback".toList) :
    dget c k = none := by
  obtain ⟨-, -, -, h4, -⟩ := C107_answers h isEmpty hl start st os ho
  obtain ⟨q, -, rfl⟩ := h4 i c hc
  exact only_other q k hk

/-- C107. A conversation has at most two messages for each request of the server and each message of the page, and one
for each other message of the server: nothing is answered over and over. -/
theorem C107_bound_partial (h : S → Content V → S × Content V) (isEmpty : Content V → Bool)
    (hl : ∀ st c, loopback c = none → loopback (h st c).2 = none) (start : Int) (st : S) (os : List (Op V))
    (ho : ∀ o ∈ os, Plain o) :
    ((Sys.new start st).run h isEmpty os).sent ≤
      2 * (os.filter (fun | .ask _ => true | .page _ => true | _ => false)).length +
        (os.filter (fun | .say _ => true | _ => false)).length := by
  have hi := inv_run h isEmpty hl os ho _ _ (inv_new start st)
  have ht : total os = 2 * (os.filter (fun | .ask _ => true | .page _ => true | _ => false)).length +
        (os.filter (fun | .say _ => true | _ => false)).length := by
    clear hi ho
    induction os with
    | nil => rfl
    | cons o os ih =>
      have : total (o :: os) = o.cost + total os := rfl
      rw [this, ih]
      cases o <;> simp [Op.cost] <;> omega
  have := hi.count
  omega

/-- What is still to be delivered. -/
def Sys.left (s : Sys S V) : Nat :=
  2 * (ids s.toBrowser).length + bare s.toBrowser + (ids s.toServer).length + 2 * bare s.toServer

theorem ids_bare (l : List (Msg (Content V))) : (ids l).length + bare l = l.length := by
  induction l with
  | nil => rfl
  | cons m l ih =>
    obtain ⟨i, c⟩ := m
    cases i
    · rw [ids_none, bare_none, List.length_cons]; omega
    · rw [ids_some, bare_some, List.length_cons, List.length_cons]; omega

theorem left_atBrowser (h : S → Content V → S × Content V) (isEmpty : Content V → Bool) (s : Sys S V) (n : Nat) (hi : Inv s n)
    (hb : s.toBrowser ≠ []) : (s.step h isEmpty .atBrowser).left + 1 = s.left := by
  unfold Sys.step
  cases hc : s.toBrowser with
  | nil => exact absurd hc hb
  | cons m rest =>
    obtain ⟨mid, c⟩ := m
    cases mid with
    | none =>
      have hp := hi.plainB ⟨none, c⟩ (by rw [hc]; exact List.mem_cons_self) rfl
      have hr : reply (⟨none, c⟩ : Msg (Content V)) = none := by unfold reply; rw [if_pos ⟨rfl, hp⟩]
      simp only [hr, Sys.left, hc, ids_none, bare_none]; omega
    | some i =>
      have hr : reply (⟨some i, c⟩ : Msg (Content V)) = some ⟨some i, only c⟩ := by unfold reply; simp
      simp only [hr, Sys.left, hc, ids_some, bare_some, ids_append, bare_append, List.length_append, List.length_cons,
        ids_nil, bare_nil, List.length_nil]
      omega

theorem left_atServer (h : S → Content V → S × Content V) (isEmpty : Content V → Bool) (s : Sys S V) (n : Nat) (hi : Inv s n)
    (hb : s.toServer ≠ []) : (s.step h isEmpty .atServer).left + 1 ≤ s.left := by
  unfold Sys.step
  cases hc : s.toServer with
  | nil => exact absurd hc hb
  | cons m rest =>
    obtain ⟨mid, c⟩ := m
    cases mid with
    | none =>
      simp only [End.recv]
      cases he : isEmpty (h s.server.state c).2 <;>
        simp only [Sys.left, hc, ids_none, bare_none, Bool.false_eq_true, if_false, if_true, ids_append, bare_append,
          List.length_append, ids_nil, bare_nil, List.length_nil] <;> omega
    | some i =>
      have hw : i ∈ s.server.waiting := (hi.waiting i).mpr (.inr (by rw [hc, ids_some]; exact List.mem_cons_self))
      simp only [End.recv, hw, if_true, Sys.left, hc, ids_some, bare_some, List.length_cons]; omega

/-- The deliveries of a run, each of a message that is there. -/
def Delivers (h : S → Content V → S × Content V) (isEmpty : Content V → Bool) : Sys S V → List (Op V) → Prop
  | _, [] => True
  | s, o :: os => ((o = .atBrowser ∧ s.toBrowser ≠ []) ∨ (o = .atServer ∧ s.toServer ≠ [])) ∧
      Delivers h isEmpty (s.step h isEmpty o) os

/-- C107. The traffic dies out: from any state, when nobody says anything new, the messages under way cause at most one
more each, whatever the order of the deliveries. -/
theorem C107_dies_out_partial (h : S → Content V → S × Content V) (isEmpty : Content V → Bool)
    (hl : ∀ st c, loopback c = none → loopback (h st c).2 = none) (start : Int) (st : S) (os : List (Op V))
    (ho : ∀ o ∈ os, Plain o) (ds : List (Op V))
    (hd : Delivers h isEmpty ((Sys.new start st).run h isEmpty os) ds) :
    ds.length ≤ 2 * (((Sys.new start st).run h isEmpty os).toBrowser.length +
      ((Sys.new start st).run h isEmpty os).toServer.length) := by
  have hi := inv_run h isEmpty hl os ho _ _ (inv_new start st)
  generalize hs : (Sys.new start st).run h isEmpty os = s at hd hi ⊢
  have key : ∀ (ds : List (Op V)) (s : Sys S V) (n : Nat), Inv s n → Delivers h isEmpty s ds → ds.length ≤ s.left := by
    intro ds
    induction ds with
    | nil => intros; simp
    | cons o ds ih =>
      intro s n hi hd
      rcases hd.1 with ⟨rfl, hb⟩ | ⟨rfl, hb⟩
      · have := ih _ _ (inv_atBrowser h isEmpty s n hi) hd.2
        have := left_atBrowser h isEmpty s n hi hb
        simp only [List.length_cons]; omega
      · have := ih _ _ (inv_atServer h isEmpty hl s n hi) hd.2
        have := left_atServer h isEmpty s n hi hb
        simp only [List.length_cons]; omega
  have := key ds s _ hi hd
  have h1 := ids_bare s.toBrowser
  have h2 := ids_bare s.toServer
  unfold Sys.left at this
  omega

theorem only_loopback (c : Content V) : loopback (only c) = loopback c := by
  unfold only loopback
  cases dget c "loopback".toList <;> simp [dget_cons, dget_nil]

/-- `n` times to the browser and back. -/
def rounds : Nat → List (Op V)
  | 0 => []
  | n + 1 => .atBrowser :: .atServer :: rounds n

/-- C107 fails for a loopback that the server sends without identifier: the browser repeats it, the server's loopback
handler repeats it (handlers.py 62–65), and so on for ever. -/
theorem C107_loopback_fails (h : S → Content V → S × Content V) (isEmpty : Content V → Bool) (P : V → Prop)
    (hP : ∀ st c v, loopback c = some v → P v → loopback (h st c).2 = some v ∧ isEmpty (h st c).2 = false)
    (s : Sys S V) (hb : s.toBrowser = []) (hs : s.toServer = []) (q : Content V) (v : V) (hq : loopback q = some v) (hv : P v)
    (n : Nat) :
    ((s.step h isEmpty (.say q)).run h isEmpty (rounds n)).sent = s.sent + 1 + 2 * n := by
  have key : ∀ (n : Nat) (s : Sys S V) (c : Content V), s.toBrowser = [⟨none, c⟩] → s.toServer = [] → loopback c = some v →
      (s.run h isEmpty (rounds n)).sent = s.sent + 2 * n := by
    intro n
    induction n with
    | zero => intros; rfl
    | succ n ih =>
      intro s c h1 h2 h3
      unfold rounds
      rw [run_cons, run_cons]
      have hr : reply (⟨none, c⟩ : Msg (Content V)) = some ⟨none, only c⟩ := by
        unfold reply; rw [if_neg (by rw [h3]; simp)]
      have hp := hP s.server.state (only c) v ((only_loopback c).trans h3) hv
      have e1 : s.step h isEmpty .atBrowser = { s with toBrowser := [], toServer := [⟨none, only c⟩], sent := s.sent + 1 } := by
        simp only [Sys.step, h1, h2, hr, List.nil_append]
      have e2 : (s.step h isEmpty .atBrowser).step h isEmpty .atServer = { s with
          server := { s.server with state := (h s.server.state (only c)).1 },
          toBrowser := [⟨none, (h s.server.state (only c)).2⟩], toServer := [], sent := s.sent + 2 } := by
        rw [e1]
        simp only [Sys.step, End.recv, hp.2, Bool.false_eq_true, if_false, List.nil_append]
      rw [e2, ih _ _ rfl rfl hp.1]
      simp only; omega
  rw [key n _ q (by simp [Sys.step, hb]) (by simp [Sys.step, hs]) hq]
  simp [Sys.step]

/-- The start of a connection: the loopback request and its answer. -/
example :
    let os : List (Op Nat) :=
      [.ask [("loopback".toList, 5), ("x".toList, 6)], .page [("ui".toList, 3)], .atBrowser, .atServer, .atServer]
    let s := (Sys.new 1 () : Sys Unit Nat).run (fun _ c => ((), only c)) (fun c => c.isEmpty) os
    s.asked = [(1, [("loopback".toList, 5), ("x".toList, 6)])] ∧ s.got = [(1, [("loopback".toList, 5)])] ∧ s.sent = 3 ∧
      s.toBrowser.length = 0 ∧ s.toServer.length = 0 := by
  decide +kernel

end Verif.Json.Browser
