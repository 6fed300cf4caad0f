import Verif.Base
import Verif.Dict
/-!
C45, C46, C47: identifiers, requests and replies of `JsonMessageInterface` (message/interface.py) and
`Identifier` (util.py).

A message is its identifier, if any, and the rest (`C`, the other keys). What the handlers of an end do
with the rest is a function of its state (`h`), run to completion before the next message is looked at,
as `process_json` is awaited for each message in turn; log messages attached to a message are left out.
-/
namespace Verif.Json

variable {S C : Type}

/-- A JSON message: the key `__id__` and everything else. -/
structure Msg (C : Type) where
  id : Option Int
  content : C

/-- How `wait_json` ends. -/
inductive Result (C : Type) where
  | reply (c : C)
  | timeout

/-- The part of `JsonMessageInterface` used here, interface.py 56–76: `curr_id`, the keys of
`ids_waiting`, `id_responses`; the events that are set and the calls of `wait_json` that have not
returned. -/
structure End (S C : Type) where
  next : Int
  waiting : List Int
  responses : List (Int × C)
  fired : List Int
  pending : List Int
  state : S

/-- A new interface; the identifiers start at 1, or 2 for `RuntimepyPeer` (util.py 37–40,
subprocess/peer.py 48–49). -/
def End.new (start : Int) (st : S) : End S C := ⟨start, [], [], [], [], st⟩

/-- `Identifier.__call__`, util.py 42–46. -/
def nextId (cur : Int) : Int × Int := (cur, cur + 2)

/-- `wait_json` up to its await, interface.py 251–267: the message to send. -/
def End.ask (e : End S C) (q : C) : End S C × Except PyErr (Msg C) :=
  let i := (nextId e.next).1
  let e' := { e with next := (nextId e.next).2 }
  if i ∈ e.waiting then (e', .error .assertion)
  else ({ e' with waiting := e.waiting ++ [i], pending := e.pending ++ [i] }, .ok ⟨some i, q⟩)

/-- `process_json` with `_handle_reserved`, interface.py 326–387 and 213–241: the handlers run, then a
message carrying an awaited identifier is kept for its requester, and any other message is answered,
with the same identifier, unless there is nothing to say. -/
def End.recv (h : S → C → S × C) (isEmpty : C → Bool) (e : End S C) (m : Msg C) : End S C × Option (Msg C) :=
  let st := (h e.state m.content).1
  let r := (h e.state m.content).2
  match m.id with
  | some i =>
    if i ∈ e.waiting then
      ({ e with state := st, responses := dset e.responses i m.content,
                waiting := e.waiting.filter (· ≠ i), fired := i :: e.fired }, none)
    else ({ e with state := st }, some ⟨some i, r⟩)
  | none => ({ e with state := st }, if isEmpty r then none else some ⟨none, r⟩)

/-- `wait_json` after its event is set, interface.py 273–277. -/
def End.resume (e : End S C) (i : Int) : End S C × Except PyErr C :=
  match dget e.responses i with
  | none => (e, .error .key)
  | some c =>
    ({ e with pending := e.pending.filter (· ≠ i), responses := (dpop e.responses i) }, .ok c)

/-- `wait_json` after its time is up, interface.py 269–271: the tables are left as they are. -/
def End.expire (e : End S C) (i : Int) : End S C :=
  { e with pending := e.pending.filter (· ≠ i) }

/-! ### One end, any peer -/

/-- What happens to one end. -/
inductive Op (C : Type) where
  | ask (q : C)
  | recv (m : Msg C)
  | resume (i : Int)
  | expire (i : Int)

/-- What is observed. -/
inductive Ev (C : Type) where
  | asked (i : Int) (q : C)
  | got (m : Msg C)
  | finished (i : Int) (r : Result C)
  | failed (e : PyErr)

/-- One step; a call of `wait_json` resumes only if it is waiting and its event is set, and expires only
if it is waiting. -/
def End.step (h : S → C → S × C) (isEmpty : C → Bool) (e : End S C) : Op C → End S C × List (Ev C)
  | .ask q =>
    match e.ask q with
    | (e', .ok m) => (e', [.asked (m.id.getD 0) q])
    | (e', .error x) => (e', [.failed x])
  | .recv m => ((e.recv h isEmpty m).1, [.got m])
  | .resume i =>
    if i ∈ e.pending ∧ i ∈ e.fired then
      match e.resume i with
      | (e', .ok c) => (e', [.finished i (.reply c)])
      | (e', .error x) => (e', [.failed x])
    else (e, [])
  | .expire i => if i ∈ e.pending then (e.expire i, [.finished i .timeout]) else (e, [])

/-- A run and its observations. -/
def End.run (h : S → C → S × C) (isEmpty : C → Bool) (e : End S C) : List (Op C) → End S C × List (Ev C)
  | [] => (e, [])
  | o :: os =>
    let r := End.run h isEmpty (e.step h isEmpty o).1 os
    (r.1, (e.step h isEmpty o).2 ++ r.2)

/-- The content of the first message with identifier `i`. -/
def firstGot (i : Int) : List (Ev C) → Option C
  | [] => none
  | .got m :: rest => if m.id = some i then some m.content else firstGot i rest
  | _ :: rest => firstGot i rest

/-- The reply to the request with identifier `i`: the first message carrying it after it was asked. -/
def answer (i : Int) : List (Ev C) → Option C
  | [] => none
  | .asked j _ :: rest => if j = i then firstGot i rest else answer i rest
  | _ :: rest => answer i rest

/-- Whether `i` was asked. -/
def Asked (i : Int) (l : List (Ev C)) : Prop := ∃ q, Ev.asked i q ∈ l

/-- The identifiers of the calls that returned. -/
def finishedIds (l : List (Ev C)) : List Int :=
  l.filterMap (fun | .finished i _ => some i | _ => none)

theorem firstGot_append (i : Int) (l r : List (Ev C)) :
    firstGot i (l ++ r) = (firstGot i l).or (firstGot i r) := by
  induction l with
  | nil => simp [firstGot]
  | cons x xs ih =>
    cases x <;> simp only [List.cons_append, firstGot, ih]
    split
    · rfl
    · rfl

theorem answer_append_asked (i : Int) (l r : List (Ev C)) (h : Asked i l) :
    answer i (l ++ r) = (answer i l).or (firstGot i r) := by
  induction l with
  | nil => obtain ⟨q, hq⟩ := h; cases hq
  | cons x xs ih =>
    cases x with
    | asked j q =>
      simp only [List.cons_append, answer]
      by_cases hj : j = i
      · rw [if_pos hj, if_pos hj, firstGot_append]
      · rw [if_neg hj, if_neg hj]
        apply ih
        obtain ⟨q', hq⟩ := h
        rcases List.mem_cons.mp hq with hq | hq
        · cases hq; exact absurd rfl hj
        · exact ⟨q', hq⟩
    | got m =>
      simp only [List.cons_append, answer]
      apply ih
      obtain ⟨q', hq⟩ := h
      rcases List.mem_cons.mp hq with hq | hq
      · cases hq
      · exact ⟨q', hq⟩
    | finished j r' =>
      simp only [List.cons_append, answer]
      apply ih
      obtain ⟨q', hq⟩ := h
      rcases List.mem_cons.mp hq with hq | hq
      · cases hq
      · exact ⟨q', hq⟩
    | failed x =>
      simp only [List.cons_append, answer]
      apply ih
      obtain ⟨q', hq⟩ := h
      rcases List.mem_cons.mp hq with hq | hq
      · cases hq
      · exact ⟨q', hq⟩

theorem answer_append_not (i : Int) (l r : List (Ev C)) (h : ¬ Asked i l) :
    answer i (l ++ r) = answer i r := by
  induction l with
  | nil => rfl
  | cons x xs ih =>
    have hx : ¬ Asked i xs := fun ⟨q, hq⟩ => h ⟨q, List.mem_cons_of_mem _ hq⟩
    cases x with
    | asked j q =>
      simp only [List.cons_append, answer]
      rw [if_neg, ih hx]
      intro e
      subst e
      exact h ⟨q, List.mem_cons_self⟩
    | got m => simp only [List.cons_append, answer]; exact ih hx
    | finished j r' => simp only [List.cons_append, answer]; exact ih hx
    | failed x => simp only [List.cons_append, answer]; exact ih hx

/-- What holds of an end after the observations `l`. -/
structure Inv (e : End S C) (l : List (Ev C)) : Prop where
  asked_lt : ∀ i, Asked i l → i < e.next
  waiting : ∀ i ∈ e.waiting, Asked i l ∧ answer i l = none
  firedAsked : ∀ i ∈ e.fired, Asked i l
  fired : ∀ i ∈ e.fired, i ∈ e.pending → ∃ c, dget e.responses i = some c ∧ answer i l = some c
  pending : ∀ i ∈ e.pending, Asked i l ∧ (i ∈ e.waiting ∨ i ∈ e.fired) ∧ i ∉ finishedIds l
  nodup : e.pending.Nodup
  finNodup : (finishedIds l).Nodup
  finAsked : ∀ i ∈ finishedIds l, Asked i l
  finReply : ∀ i c, Ev.finished i (.reply c) ∈ l → answer i l = some c
  ok : ∀ x, Ev.failed x ∉ l

theorem finishedIds_append (l r : List (Ev C)) : finishedIds (l ++ r) = finishedIds l ++ finishedIds r := by
  simp [finishedIds]

theorem mem_finishedIds {i : Int} {l : List (Ev C)} : i ∈ finishedIds l ↔ ∃ r, Ev.finished i r ∈ l := by
  unfold finishedIds
  rw [List.mem_filterMap]
  constructor
  · rintro ⟨e, he, h⟩
    cases e with
    | finished j r => simp only [Option.some.injEq] at h; subst h; exact ⟨r, he⟩
    | asked _ _ => simp at h
    | got _ => simp at h
    | failed _ => simp at h
  · rintro ⟨r, hr⟩
    exact ⟨_, hr, rfl⟩

theorem asked_append {i : Int} {l r : List (Ev C)} : Asked i (l ++ r) ↔ Asked i l ∨ Asked i r := by
  constructor
  · rintro ⟨q, hq⟩
    rcases List.mem_append.mp hq with h | h
    · exact Or.inl ⟨q, h⟩
    · exact Or.inr ⟨q, h⟩
  · rintro (⟨q, h⟩ | ⟨q, h⟩)
    · exact ⟨q, List.mem_append_left _ h⟩
    · exact ⟨q, List.mem_append_right _ h⟩

/-- Observations that are neither requests nor receptions leave the answers alone. -/
theorem answer_quiet (i : Int) (l : List (Ev C)) (x : Ev C) (h1 : ∀ j q, x ≠ .asked j q) (h2 : ∀ m, x ≠ .got m) :
    answer i (l ++ [x]) = answer i l := by
  have hf : firstGot i [x] = none := by
    cases x with
    | got m => exact absurd rfl (h2 m)
    | _ => rfl
  have ha : answer i [x] = none := by
    cases x with
    | asked j q => exact absurd rfl (h1 j q)
    | _ => rfl
  by_cases h : Asked i l
  · rw [answer_append_asked i l _ h, hf, Option.or_none]
  · rw [answer_append_not i l _ h, ha]
    have := answer_append_not i l [] h
    simpa [answer] using this.symm

theorem answer_not_asked (i : Int) (l : List (Ev C)) (h : ¬ Asked i l) : answer i l = none := by
  have := answer_append_not i l [] h
  simpa [answer] using this

theorem inv_step (h : S → C → S × C) (isEmpty : C → Bool) (e : End S C) (l : List (Ev C)) (hi : Inv e l) (o : Op C) :
    Inv (e.step h isEmpty o).1 (l ++ (e.step h isEmpty o).2) := by
  cases o with
  | ask q =>
    have hfresh : ¬ Asked e.next l := fun ha => by have := hi.asked_lt _ ha; omega
    have hnw : e.next ∉ e.waiting := fun hw => hfresh (hi.waiting _ hw).1
    have hstep : e.step h isEmpty (.ask q) = (⟨e.next + 2, e.waiting ++ [e.next], e.responses, e.fired,
        e.pending ++ [e.next], e.state⟩, [.asked e.next q]) := by
      simp [End.step, End.ask, nextId, hnw]
    rw [hstep]
    have hasked : ∀ i, Asked i [Ev.asked e.next q] ↔ i = e.next := by
      intro i
      constructor
      · rintro ⟨q', hq⟩; rw [List.mem_singleton] at hq; cases hq; rfl
      · rintro rfl; exact ⟨q, List.mem_singleton.mpr rfl⟩
    have hans : ∀ i, answer i (l ++ [Ev.asked e.next q]) = answer i l := by
      intro i
      by_cases hA : Asked i l
      · rw [answer_append_asked i l _ hA]; simp [firstGot]
      · rw [answer_append_not i l _ hA, answer_not_asked i l hA]
        simp [answer, firstGot]
    have hfin : finishedIds (l ++ [Ev.asked e.next q]) = finishedIds l := by
      rw [finishedIds_append]; simp [finishedIds]
    refine ⟨?_, ?_, ?_, ?_, ?_, ?_, ?_, ?_, ?_, ?_⟩
    · intro i ha
      simp only
      rcases asked_append.mp ha with ha | ha
      · have := hi.asked_lt i ha; omega
      · rw [(hasked i).mp ha]; omega
    · intro i hw
      rw [hans]
      rcases List.mem_append.mp hw with hw | hw
      · exact ⟨asked_append.mpr (Or.inl (hi.waiting i hw).1), (hi.waiting i hw).2⟩
      · rw [List.mem_singleton] at hw
        subst hw
        exact ⟨asked_append.mpr (Or.inr ((hasked _).mpr rfl)), answer_not_asked _ _ hfresh⟩
    · intro i hf
      exact asked_append.mpr (Or.inl (hi.firedAsked i hf))
    · intro i hf hp
      rw [hans]
      rcases List.mem_append.mp hp with hp | hp
      · exact hi.fired i hf hp
      · rw [List.mem_singleton] at hp
        subst hp
        exact absurd (hi.firedAsked _ hf) hfresh
    · intro i hp
      rw [hfin]
      rcases List.mem_append.mp hp with hp | hp
      · obtain ⟨h1, h2, h3⟩ := hi.pending i hp
        refine ⟨asked_append.mpr (Or.inl h1), ?_, h3⟩
        rcases h2 with h2 | h2
        · exact Or.inl (List.mem_append_left _ h2)
        · exact Or.inr h2
      · rw [List.mem_singleton] at hp
        subst hp
        exact ⟨asked_append.mpr (Or.inr ((hasked _).mpr rfl)), Or.inl (by simp),
          fun hm => hfresh (hi.finAsked _ hm)⟩
    · rw [List.nodup_append]
      refine ⟨hi.nodup, List.pairwise_singleton _ _, ?_⟩
      intro a ha b hb e'
      rw [List.mem_singleton] at hb
      subst hb; subst e'
      exact hfresh (hi.pending _ ha).1
    · rw [hfin]; exact hi.finNodup
    · intro i hm
      rw [hfin] at hm
      exact asked_append.mpr (Or.inl (hi.finAsked i hm))
    · intro i c hm
      rw [hans]
      rcases List.mem_append.mp hm with hm | hm
      · exact hi.finReply i c hm
      · rw [List.mem_singleton] at hm; cases hm
    · intro x hm
      rcases List.mem_append.mp hm with hm | hm
      · exact hi.ok x hm
      · rw [List.mem_singleton] at hm; cases hm
  | recv m =>
    have hnask : ∀ i, ¬ Asked i [Ev.got m] := by
      rintro i ⟨q, hq⟩; rw [List.mem_singleton] at hq; cases hq
    have hask : ∀ i, Asked i (l ++ [Ev.got m]) ↔ Asked i l := by
      intro i
      rw [asked_append]
      exact ⟨fun h => h.resolve_right (hnask i), Or.inl⟩
    have hfin : finishedIds (l ++ [Ev.got m]) = finishedIds l := by
      rw [finishedIds_append]; simp [finishedIds]
    have hkeep : ∀ i, m.id ≠ some i → answer i (l ++ [Ev.got m]) = answer i l := by
      intro i hm
      by_cases hA : Asked i l
      · rw [answer_append_asked i l _ hA]; simp [firstGot, hm]
      · rw [answer_append_not i l _ hA, answer_not_asked i l hA]; simp [answer]
    have hsome : ∀ i c, answer i l = some c → answer i (l ++ [Ev.got m]) = some c := by
      intro i c hc
      have hA : Asked i l := by
        apply Classical.byContradiction
        intro hn
        rw [answer_not_asked i l hn] at hc
        cases hc
      rw [answer_append_asked i l _ hA, hc]; rfl
    have hrep : ∀ i c, Ev.finished i (.reply c) ∈ l ++ [Ev.got m] → answer i (l ++ [Ev.got m]) = some c := by
      intro i c hm
      rcases List.mem_append.mp hm with hm | hm
      · exact hsome i c (hi.finReply i c hm)
      · rw [List.mem_singleton] at hm; cases hm
    have hok : ∀ x, Ev.failed x ∉ l ++ [Ev.got m] := by
      intro x hm
      rcases List.mem_append.mp hm with hm | hm
      · exact hi.ok x hm
      · rw [List.mem_singleton] at hm; cases hm
    have hquiet : ∀ st : S, (∀ i ∈ e.waiting, m.id ≠ some i) → Inv { e with state := st } (l ++ [Ev.got m]) := by
      intro st hno
      refine ⟨fun i ha => hi.asked_lt i ((hask i).mp ha), ?_, fun i hf => (hask i).mpr (hi.firedAsked i hf), ?_, ?_,
        hi.nodup, by rw [hfin]; exact hi.finNodup, ?_, hrep, hok⟩
      · intro i hw
        rw [hkeep i (hno i hw)]
        exact ⟨(hask i).mpr (hi.waiting i hw).1, (hi.waiting i hw).2⟩
      · intro i hf hp
        obtain ⟨c, h1, h2⟩ := hi.fired i hf hp
        exact ⟨c, h1, hsome i c h2⟩
      · intro i hp
        rw [hfin]
        exact ⟨(hask i).mpr (hi.pending i hp).1, (hi.pending i hp).2⟩
      · intro i hm
        rw [hfin] at hm
        exact (hask i).mpr (hi.finAsked i hm)
    show Inv (e.recv h isEmpty m).1 (l ++ [Ev.got m])
    cases hid : m.id with
    | none =>
      have : (e.recv h isEmpty m).1 = { e with state := (h e.state m.content).1 } := by
        simp [End.recv, hid]
      rw [this]
      exact hquiet _ (fun i _ => by rw [hid]; simp)
    | some j =>
      by_cases hj : j ∈ e.waiting
      · have : (e.recv h isEmpty m).1 = ⟨e.next, e.waiting.filter (· ≠ j), dset e.responses j m.content,
            j :: e.fired, e.pending, (h e.state m.content).1⟩ := by
          simp [End.recv, hid, hj]
        rw [this]
        obtain ⟨hja, hjn⟩ := hi.waiting j hj
        have hjans : answer j (l ++ [Ev.got m]) = some m.content := by
          rw [answer_append_asked j l _ hja, hjn]
          simp [firstGot, hid]
        refine ⟨fun i ha => hi.asked_lt i ((hask i).mp ha), ?_, ?_, ?_, ?_,
          hi.nodup, by rw [hfin]; exact hi.finNodup, ?_, hrep, hok⟩
        · intro i hw
          obtain ⟨hw, hne⟩ := List.mem_filter.mp hw
          have hne : i ≠ j := by simpa using hne
          rw [hkeep i (by rw [hid]; simpa using fun e => hne e.symm)]
          exact ⟨(hask i).mpr (hi.waiting i hw).1, (hi.waiting i hw).2⟩
        · intro i hf
          rcases List.mem_cons.mp hf with rfl | hf
          · exact (hask _).mpr hja
          · exact (hask i).mpr (hi.firedAsked i hf)
        · intro i hf hp
          by_cases hij : i = j
          · subst hij
            exact ⟨m.content, dget_dset_self _ _ _, hjans⟩
          · rcases List.mem_cons.mp hf with hf | hf
            · exact absurd hf hij
            · obtain ⟨c, h1, h2⟩ := hi.fired i hf hp
              refine ⟨c, ?_, hsome i c h2⟩
              simp only
              rw [dget_dset_ne _ _ _ _ (fun e => hij e.symm)]; exact h1
        · intro i hp
          rw [hfin]
          obtain ⟨h1, h2, h3⟩ := hi.pending i hp
          refine ⟨(hask i).mpr h1, ?_, h3⟩
          by_cases hij : i = j
          · subst hij; exact Or.inr List.mem_cons_self
          · rcases h2 with h2 | h2
            · exact Or.inl (List.mem_filter.mpr ⟨h2, by simpa using hij⟩)
            · exact Or.inr (List.mem_cons_of_mem _ h2)
        · intro i hm
          rw [hfin] at hm
          exact (hask i).mpr (hi.finAsked i hm)
      · have : (e.recv h isEmpty m).1 = { e with state := (h e.state m.content).1 } := by
          simp [End.recv, hid, hj]
        rw [this]
        refine hquiet _ (fun i hw e' => hj ?_)
        rw [hid] at e'
        injection e' with e'
        rw [e']; exact hw
  | resume i =>
    unfold End.step
    by_cases hc : i ∈ e.pending ∧ i ∈ e.fired
    · obtain ⟨c, h1, h2⟩ := hi.fired i hc.2 hc.1
      have hr : e.resume i = (⟨e.next, e.waiting, dpop e.responses i, e.fired, e.pending.filter (· ≠ i), e.state⟩, .ok c) := by
        simp [End.resume, h1]
      simp only [if_pos hc, hr]
      have hq : ∀ k, answer k (l ++ [Ev.finished i (.reply c)]) = answer k l := fun k =>
        answer_quiet k l _ (by intro j q; simp) (by intro m; simp)
      have hask : ∀ k, Asked k (l ++ [Ev.finished i (.reply c)]) ↔ Asked k l := by
        intro k
        rw [asked_append]
        refine ⟨fun h => h.resolve_right ?_, Or.inl⟩
        rintro ⟨q, hq⟩; rw [List.mem_singleton] at hq; cases hq
      have hfin : finishedIds (l ++ [Ev.finished i (.reply c)]) = finishedIds l ++ [i] := by
        rw [finishedIds_append]; simp [finishedIds]
      have hni : i ∉ finishedIds l := (hi.pending i hc.1).2.2
      refine ⟨fun k ha => hi.asked_lt k ((hask k).mp ha), ?_, fun k hf => (hask k).mpr (hi.firedAsked k hf), ?_, ?_,
        hi.nodup.filter _, ?_, ?_, ?_, ?_⟩
      · intro k hw
        rw [hq]
        exact ⟨(hask k).mpr (hi.waiting k hw).1, (hi.waiting k hw).2⟩
      · intro k hf hp
        obtain ⟨hp, hne⟩ := List.mem_filter.mp hp
        have hne : k ≠ i := by simpa using hne
        obtain ⟨c', h1, h2⟩ := hi.fired k hf hp
        refine ⟨c', ?_, by rw [hq]; exact h2⟩
        rw [dget_dpop, if_neg (fun e => hne e.symm)]; exact h1
      · intro k hp
        obtain ⟨hp, hne⟩ := List.mem_filter.mp hp
        have hne : k ≠ i := by simpa using hne
        obtain ⟨h1, h2, h3⟩ := hi.pending k hp
        refine ⟨(hask k).mpr h1, h2, ?_⟩
        rw [hfin]
        intro hm
        rcases List.mem_append.mp hm with hm | hm
        · exact h3 hm
        · exact hne (List.mem_singleton.mp hm)
      · rw [hfin, List.nodup_append]
        refine ⟨hi.finNodup, List.pairwise_singleton _ _, ?_⟩
        intro a ha b hb e'
        rw [List.mem_singleton] at hb
        subst hb; subst e'
        exact hni ha
      · intro k hm
        rw [hfin] at hm
        rcases List.mem_append.mp hm with hm | hm
        · exact (hask k).mpr (hi.finAsked k hm)
        · rw [List.mem_singleton] at hm
          subst hm
          exact (hask _).mpr (hi.pending _ hc.1).1
      · intro k c' hm
        rw [hq]
        rcases List.mem_append.mp hm with hm | hm
        · exact hi.finReply k c' hm
        · rw [List.mem_singleton] at hm
          injection hm with e1 e2
          injection e2 with e2
          subst e1; subst e2
          exact h2
      · intro x hm
        rcases List.mem_append.mp hm with hm | hm
        · exact hi.ok x hm
        · rw [List.mem_singleton] at hm; cases hm
    · simp only [if_neg hc, List.append_nil]
      exact hi
  | expire i =>
    unfold End.step
    by_cases hc : i ∈ e.pending
    · simp only [if_pos hc, End.expire]
      have hq : ∀ k, answer k (l ++ [Ev.finished i .timeout]) = answer k l := fun k =>
        answer_quiet k l _ (by intro j q; simp) (by intro m; simp)
      have hask : ∀ k, Asked k (l ++ [Ev.finished i .timeout]) ↔ Asked k l := by
        intro k
        rw [asked_append]
        refine ⟨fun h => h.resolve_right ?_, Or.inl⟩
        rintro ⟨q, hq⟩; rw [List.mem_singleton] at hq; cases hq
      have hfin : finishedIds (l ++ [Ev.finished i .timeout]) = finishedIds l ++ [i] := by
        rw [finishedIds_append]; simp [finishedIds]
      have hni : i ∉ finishedIds l := (hi.pending i hc).2.2
      refine ⟨fun k ha => hi.asked_lt k ((hask k).mp ha), ?_, fun k hf => (hask k).mpr (hi.firedAsked k hf), ?_, ?_,
        hi.nodup.filter _, ?_, ?_, ?_, ?_⟩
      · intro k hw
        rw [hq]
        exact ⟨(hask k).mpr (hi.waiting k hw).1, (hi.waiting k hw).2⟩
      · intro k hf hp
        obtain ⟨hp, hne⟩ := List.mem_filter.mp hp
        rw [hq]
        exact hi.fired k hf hp
      · intro k hp
        obtain ⟨hp, hne⟩ := List.mem_filter.mp hp
        have hne : k ≠ i := by simpa using hne
        obtain ⟨h1, h2, h3⟩ := hi.pending k hp
        refine ⟨(hask k).mpr h1, h2, ?_⟩
        rw [hfin]
        intro hm
        rcases List.mem_append.mp hm with hm | hm
        · exact h3 hm
        · exact hne (List.mem_singleton.mp hm)
      · rw [hfin, List.nodup_append]
        refine ⟨hi.finNodup, List.pairwise_singleton _ _, ?_⟩
        intro a ha b hb e'
        rw [List.mem_singleton] at hb
        subst hb; subst e'
        exact hni ha
      · intro k hm
        rw [hfin] at hm
        rcases List.mem_append.mp hm with hm | hm
        · exact (hask k).mpr (hi.finAsked k hm)
        · rw [List.mem_singleton] at hm
          subst hm
          exact (hask _).mpr (hi.pending _ hc).1
      · intro k c' hm
        rw [hq]
        rcases List.mem_append.mp hm with hm | hm
        · exact hi.finReply k c' hm
        · rw [List.mem_singleton] at hm
          injection hm with e1 e2
          cases e2
      · intro x hm
        rcases List.mem_append.mp hm with hm | hm
        · exact hi.ok x hm
        · rw [List.mem_singleton] at hm; cases hm
    · simp only [if_neg hc, List.append_nil]
      exact hi

theorem inv_run (h : S → C → S × C) (isEmpty : C → Bool) (os : List (Op C)) (e : End S C) (l : List (Ev C))
    (hi : Inv e l) : Inv (e.run h isEmpty os).1 (l ++ (e.run h isEmpty os).2) := by
  induction os generalizing e l with
  | nil => simpa [End.run] using hi
  | cons o os ih =>
    have := ih _ _ (inv_step h isEmpty e l hi o)
    simpa [End.run] using this

theorem inv_new (start : Int) (st : S) : Inv (End.new start st : End S C) [] := by
  refine ⟨?_, ?_, ?_, ?_, ?_, List.nodup_nil, List.nodup_nil, ?_, ?_, ?_⟩
  · rintro i ⟨q, hq⟩; cases hq
  all_goals (intro i hi; first | cases hi | (intro hi; cases hi))

/-- C45. Whatever is asked, received, resumed and timed out, in any order and from any peer: a request
that is answered is answered with the content of the first message that carried its identifier after it
was asked; every request returns at most once; nothing returns that was not asked; and `wait_json` never
fails for want of its own bookkeeping. -/
theorem C45_replies (h : S → C → S × C) (isEmpty : C → Bool) (start : Int) (st : S) (os : List (Op C)) :
    let l := ((End.new start st : End S C).run h isEmpty os).2
    (∀ i c, Ev.finished i (.reply c) ∈ l → answer i l = some c) ∧
    (finishedIds l).Nodup ∧ (∀ i ∈ finishedIds l, Asked i l) ∧ (∀ x, Ev.failed x ∉ l) := by
  have := inv_run h isEmpty os _ _ (inv_new (C := C) start st)
  rw [List.nil_append] at this
  exact ⟨this.finReply, this.finNodup, this.finAsked, this.ok⟩

/-- C45. What an end writes when a message arrives: nothing if it is an awaited reply; otherwise what
its handlers say, with the identifier of the message; without an identifier, only if that is not
empty. -/
theorem C45_written (h : S → C → S × C) (isEmpty : C → Bool) (e : End S C) (m o : Msg C) :
    (e.recv h isEmpty m).2 = some o ↔
      o = ⟨m.id, (h e.state m.content).2⟩ ∧ (∀ i, m.id = some i → i ∉ e.waiting)
      ∧ (m.id = none → isEmpty (h e.state m.content).2 = false) := by
  obtain ⟨id, c⟩ := m
  cases id with
  | some i =>
    by_cases hw : i ∈ e.waiting
    · simp [End.recv, hw]
    · simp only [End.recv, if_neg hw, Option.some.injEq]
      exact ⟨fun x => ⟨x.symm, fun j hj => (by cases hj; exact hw), fun x => (by cases x)⟩, fun x => x.1.symm⟩
  | none =>
    cases he : isEmpty (h e.state c).2 with
    | true => simp [End.recv, he]
    | false =>
      simp only [End.recv, he, Option.some.injEq, Bool.false_eq_true, if_false]
      exact ⟨fun x => ⟨x.symm, fun j hj => (by cases hj), fun _ => trivial⟩, fun x => x.1.symm⟩

/-- A time-out leaves its entry behind: until a message with that identifier arrives, whatever else
happens, the identifier stays among those awaited although nobody waits. -/
theorem C45_leak_fails (h : S → C → S × C) (isEmpty : C → Bool) (e : End S C) (i : Int) (os : List (Op C))
    (hw : i ∈ e.waiting) (ho : ∀ m, Op.recv m ∈ os → m.id ≠ some i) :
    i ∈ ((e.expire i).run h isEmpty os).1.waiting ∧ i ∉ (e.expire i).pending := by
  constructor
  · have hw' : i ∈ (e.expire i).waiting := hw
    revert hw'
    generalize e.expire i = e
    clear hw
    intro hw
    induction os generalizing e with
    | nil => exact hw
    | cons o os ih =>
      refine ih (fun m hm => ho m (List.mem_cons_of_mem _ hm)) _ ?_
      cases o with
      | ask q =>
        simp only [End.step, End.ask]
        split
        · rename_i x y hx
          split at hx
          · injection hx with h1 h2; cases h2
          · injection hx with h1 h2; subst h1; exact List.mem_append_left _ hw
        · rename_i x y hx
          split at hx
          · injection hx with h1 h2; subst h1; exact hw
          · injection hx with h1 h2; cases h2
      | recv m =>
        have hne := ho m List.mem_cons_self
        simp only [End.step, End.recv]
        cases hid : m.id with
        | none => exact hw
        | some j =>
          simp only
          split
          · refine List.mem_filter.mpr ⟨hw, ?_⟩
            simp only [ne_eq, decide_not, Bool.not_eq_true', decide_eq_false_iff_not]
            intro e'
            exact hne (by rw [hid, e'])
          · exact hw
      | resume j =>
        simp only [End.step, End.resume]
        split
        · cases dget e.responses j <;> exact hw
        · exact hw
      | expire j =>
        simp only [End.step, End.expire]
        split <;> exact hw
  · simp [End.expire]

end Verif.Json
