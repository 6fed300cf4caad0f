import Verif.Base

/-!
C86: the browser connections that share the UI struct (net/server/websocket/__init__.py 45–90, 128–163;
net/server/struct/__init__.py 35–62).

Every connection joins the UI struct once that is finalised: it registers a callback on `num_connections`, an 8-bit
unsigned channel, and adds one; when disabled it subtracts one. The connection that shall poll the struct's metrics is
chosen by the callback. Tabs (C69), the struct's other metrics and a replaced singleton are left out; the rate limiter
is a boolean of each frame.
-/
namespace Verif.Server.UiCount
open Verif

structure State where
  /-- the struct's environment is finalised -/
  ready : Bool
  /-- `num_connections` -/
  count : Nat
  /-- connections whose callback is registered, in order -/
  reg : List Nat
  enabled : Nat → Bool
  /-- `poll_connection_metrics` -/
  poll : Nat → Bool
  /-- `time_ms` of the struct -/
  time : Int

def State.init : State := ⟨false, 0, [], fun _ => false, fun _ => false, 0⟩

/-- `add_int("num_connections", …)`: the channel keeps eight bits, the callbacks get the new value as it was
computed (primitives/base.py 137–160), and are called when it differs from the old one. -/
def State.add (s : State) (d : Int) : State :=
  let new : Int := s.count + d
  { s with count := (new % 256).toNat, poll := fun i => s.poll i || (decide (i ∈ s.reg) && (decide ((s.count : Int) ≠ new) && decide (new = 1))) }

/-- `_get_ui`, 45–70. -/
def State.join (s : State) (i : Nat) : State :=
  if s.ready = true ∧ i ∉ s.reg then ({ s with reg := s.reg ++ [i] } : State).add 1 else s

/-- `disable_extra`, 151–163, and the rest of `disable`. -/
def State.disable (s : State) (i : Nat) : State :=
  if s.enabled i then
    let s := s.join i
    let s := if i ∈ s.reg then ({ s with poll := fun j => if j = i then false else s.poll j } : State).add (-1) else s
    { s with enabled := fun j => if j = i then false else s.enabled j }
  else s

/-- A frame of the browser: `ui_handler` with a time, and `_poll_ui_state`. -/
def State.frame (s : State) (i : Nat) (t : Int) (governor : Bool) : State :=
  if s.enabled i then
    let s := s.join i
    if i ∈ s.reg ∧ s.poll i = true ∧ governor = true then { s with time := t } else s
  else s

inductive Ev where
  /-- the UI struct is finalised -/
  | ready
  /-- a new connection -/
  | connect (i : Nat)
  /-- its `async_init` -/
  | start (i : Nat)
  | frame (i : Nat) (t : Int) (governor : Bool)
  | disable (i : Nat)

def step (s : State) : Ev → State
  | .ready => { s with ready := true }
  | .connect i => if i ∈ s.reg then s else { s with enabled := fun j => if j = i then true else s.enabled j }
  | .start i => if s.enabled i then s.join i else s
  | .frame i t g => s.frame i t g
  | .disable i => s.disable i

def run (s : State) (t : List Ev) : State := t.foldl step s

/-- The connections that have joined and are enabled. -/
def active (s : State) : List Nat := s.reg.filter s.enabled

structure Inv (s : State) : Prop where
  nodup : s.reg.Nodup
  count : s.count = (active s).length % 256

theorem inv_init : Inv State.init := ⟨List.nodup_nil, rfl⟩

theorem mem_active (s : State) (i : Nat) : i ∈ active s ↔ i ∈ s.reg ∧ s.enabled i = true := by simp [active]

theorem active_join (s : State) (i : Nat) (he : s.enabled i = true) (hr : s.ready = true) (hi : i ∉ s.reg) :
    active (s.join i) = active s ++ [i] := by
  simp [State.join, hr, hi, active, State.add, he, List.filter_append]

theorem inv_join (s : State) (i : Nat) (h : Inv s) (he : s.enabled i = true) : Inv (s.join i) := by
  by_cases hc : s.ready = true ∧ i ∉ s.reg
  · refine ⟨?_, ?_⟩
    · simp only [State.join, if_pos hc, State.add]
      rw [List.nodup_append]
      refine ⟨h.nodup, by simp, ?_⟩
      intro a ha b hb e
      rw [List.mem_singleton] at hb
      subst hb; subst e
      exact hc.2 ha
    · rw [active_join s i he hc.1 hc.2]
      simp only [State.join, if_pos hc, State.add, List.length_append, List.length_singleton]
      have := h.count
      omega
  · simp only [State.join, if_neg hc]; exact h

theorem filter_drop (l : List Nat) (f : Nat → Bool) (i : Nat) (hn : l.Nodup) :
    (l.filter (fun j => if j = i then false else f j)).length + (if i ∈ l ∧ f i = true then 1 else 0) = (l.filter f).length := by
  induction l with
  | nil => simp
  | cons a l ih =>
    rw [List.nodup_cons] at hn
    have := ih hn.2
    rw [List.filter_cons, List.filter_cons]
    by_cases ha : a = i
    · subst ha
      have hl : (l.filter (fun j => if j = a then false else f j)).length = (l.filter f).length := by
        rw [if_neg (fun h => hn.1 h.1)] at this; exact this
      generalize l.filter (fun j => if j = a then false else f j) = L at hl
      cases hf : f a <;> simp [hl]
    · have hm : (i ∈ a :: l ∧ f i = true) ↔ (i ∈ l ∧ f i = true) := by
        simp only [List.mem_cons]
        constructor
        · rintro ⟨e | h, h2⟩
          · exact absurd e.symm ha
          · exact ⟨h, h2⟩
        · rintro ⟨h, h2⟩; exact ⟨Or.inr h, h2⟩
      simp only [hm, if_neg ha]
      generalize l.filter (fun j => if j = i then false else f j) = L at this
      cases f a <;> simp <;> omega

theorem join_enabled (s : State) (i : Nat) : (s.join i).enabled = s.enabled := by
  simp only [State.join]; split <;> rfl

theorem add_reg (s : State) (d : Int) : (s.add d).reg = s.reg ∧ (s.add d).enabled = s.enabled := ⟨rfl, rfl⟩

/-- The state of `disable` before the flag changes. -/
def State.leave (s : State) (i : Nat) : State :=
  if i ∈ s.reg then ({ s with poll := fun j => if j = i then false else s.poll j } : State).add (-1) else s

theorem disable_eq (s : State) (i : Nat) (he : s.enabled i = true) :
    s.disable i = { (s.join i).leave i with enabled := fun j => if j = i then false else s.enabled j } := by
  simp only [State.disable, he, if_true, State.leave]
  split
  · simp only [State.add, join_enabled]
  · simp only [join_enabled]

theorem leave_reg (s : State) (i : Nat) : (s.leave i).reg = s.reg := by
  simp only [State.leave]; split <;> rfl

theorem inv_disable (s : State) (i : Nat) (h : Inv s) : Inv (s.disable i) := by
  by_cases he : s.enabled i = true
  · have hj := inv_join s i h he
    rw [disable_eq s i he]
    refine ⟨?_, ?_⟩
    · show ((s.join i).leave i).reg.Nodup
      rw [leave_reg]; exact hj.nodup
    · have fd := filter_drop (s.join i).reg s.enabled i hj.nodup
      have hc := hj.count
      simp only [active, join_enabled] at hc
      simp only [active, leave_reg]
      by_cases hr : i ∈ (s.join i).reg
      · rw [if_pos ⟨hr, he⟩] at fd
        simp only [State.leave, if_pos hr, State.add]
        omega
      · rw [if_neg (fun h => hr h.1)] at fd
        simp only [State.leave, if_neg hr]
        omega
  · simp only [State.disable, he, Bool.false_eq_true, if_false]; exact h

theorem inv_frame (s : State) (i : Nat) (t : Int) (g : Bool) (h : Inv s) : Inv (s.frame i t g) := by
  simp only [State.frame]
  split
  · rename_i he
    have := inv_join s i h he
    split
    · exact ⟨this.nodup, this.count⟩
    · exact this
  · exact h

theorem filter_new (l : List Nat) (f : Nat → Bool) (i : Nat) (h : i ∉ l) :
    l.filter (fun j => if j = i then true else f j) = l.filter f := by
  apply List.filter_congr
  intro x hx
  have : x ≠ i := by rintro rfl; exact h hx
  rw [if_neg this]

theorem inv_step (s : State) (e : Ev) (h : Inv s) : Inv (step s e) := by
  cases e with
  | ready => exact ⟨h.nodup, h.count⟩
  | connect i =>
    simp only [step]
    split
    · exact h
    · rename_i hi
      refine ⟨h.nodup, ?_⟩
      simp only [active]
      rw [filter_new _ _ _ hi]
      exact h.count
  | start i =>
    simp only [step]
    split
    · exact inv_join s i h ‹_›
    · exact h
  | frame i t g => exact inv_frame s i t g h
  | disable i => exact inv_disable s i h

theorem inv_run (t : List Ev) (s : State) (h : Inv s) : Inv (run s t) := by
  induction t generalizing s with
  | nil => exact h
  | cons e t ih => exact ih _ (inv_step s e h)

/-- The channel counts the enabled connections that have joined, to eight bits. -/
theorem C86_count (t : List Ev) : (run .init t).count = (active (run .init t)).length % 256 :=
  (inv_run t _ inv_init).count

/-! ### Polling -/

/-- No two enabled connections poll, and one that is alone does. -/
def Chosen (s : State) : Prop :=
  (∀ i ∈ active s, ∀ j ∈ active s, s.poll i = true → s.poll j = true → i = j) ∧
  (∀ i, active s = [i] → s.poll i = true)

/-- No enabled connection polls. -/
def Silent (s : State) : Prop := ∀ i ∈ active s, s.poll i = false

theorem add_poll (s : State) (d : Int) (i : Nat) :
    (s.add d).poll i = true ↔ s.poll i = true ∨ (i ∈ s.reg ∧ (s.count : Int) ≠ s.count + d ∧ (s.count : Int) + d = 1) := by
  simp [State.add]

theorem join_poll (s : State) (i j : Nat) (hr : s.ready = true) (hi : i ∉ s.reg) :
    (s.join i).poll j = true ↔ s.poll j = true ∨ ((j ∈ s.reg ∨ j = i) ∧ s.count = 0) := by
  simp only [State.join, if_pos (⟨hr, hi⟩ : s.ready = true ∧ i ∉ s.reg)]
  rw [add_poll]
  simp only [List.mem_append, List.mem_singleton]
  constructor
  · rintro (h | ⟨h1, -, h3⟩)
    · exact Or.inl h
    · exact Or.inr ⟨h1, by omega⟩
  · rintro (h | ⟨h1, h2⟩)
    · exact Or.inl h
    · exact Or.inr ⟨h1, by omega, by omega⟩

/-- Connections that have not joined do not poll. -/
def Fresh (s : State) : Prop := ∀ i, i ∉ s.reg → s.poll i = false

theorem fresh_join (s : State) (i : Nat) (h : Fresh s) : Fresh (s.join i) := by
  by_cases hc : s.ready = true ∧ i ∉ s.reg
  · intro j hj
    have hj' : j ∉ s.reg ∧ j ≠ i := by
      simp only [State.join, if_pos hc, State.add, List.mem_append, List.mem_singleton, not_or] at hj
      exact hj
    have : ¬ (s.join i).poll j = true := by
      rw [join_poll s i j hc.1 hc.2]
      rintro (h1 | ⟨h1 | h1, -⟩)
      · rw [h j hj'.1] at h1; cases h1
      · exact hj'.1 h1
      · exact hj'.2 h1
    simpa using this
  · simp only [State.join, if_neg hc]; exact h

theorem fresh_leave (s : State) (i : Nat) (h : Fresh s) : Fresh (s.leave i) := by
  simp only [State.leave]
  split
  · rename_i hi
    intro j hj
    have hj' : j ∉ s.reg := hj
    have : ¬ (({ s with poll := fun j => if j = i then false else s.poll j } : State).add (-1)).poll j = true := by
      rw [add_poll]
      rintro (h1 | ⟨h1, -⟩)
      · dsimp only at h1
        split at h1
        · cases h1
        · rw [h j hj'] at h1; cases h1
      · exact hj' h1
    simpa using this
  · exact h

theorem fresh_step (s : State) (e : Ev) (h : Fresh s) : Fresh (step s e) := by
  cases e with
  | ready => exact h
  | connect i => simp only [step]; split <;> exact h
  | start i => simp only [step]; split; exact fresh_join s i h; exact h
  | frame i t g =>
    simp only [step, State.frame]
    split
    · split
      · exact fresh_join s i h
      · exact fresh_join s i h
    · exact h
  | disable i =>
    simp only [step]
    by_cases he : s.enabled i = true
    · rw [disable_eq s i he]
      exact fresh_leave _ i (fresh_join s i h)
    · simp only [State.disable, he, Bool.false_eq_true, if_false]; exact h

theorem fresh_run (t : List Ev) (s : State) (h : Fresh s) : Fresh (run s t) := by
  induction t generalizing s with
  | nil => exact h
  | cons e t ih => exact ih _ (fresh_step s e h)

theorem fresh_init : Fresh State.init := fun _ _ => rfl

/-- What joining does to the choice, with fewer than 255 others. -/
theorem chosen_join (s : State) (i : Nat) (hinv : Inv s) (hf : Fresh s) (he : s.enabled i = true) (hr : s.ready = true)
    (hi : i ∉ s.reg) (hb : (active s).length ≤ 255) (h : Chosen s) : Chosen (s.join i) := by
  have hcount : s.count = (active s).length := by have := hinv.count; omega
  have ha := active_join s i he hr hi
  refine ⟨?_, ?_⟩
  · intro a ha' b hb' pa pb
    rw [ha, List.mem_append, List.mem_singleton] at ha' hb'
    rw [join_poll s i _ hr hi] at pa pb
    by_cases h0 : s.count = 0
    · have hnil : active s = [] := List.eq_nil_of_length_eq_zero (by omega)
      rw [hnil] at ha' hb'
      rcases ha' with h1 | rfl
      · cases h1
      · rcases hb' with h1 | rfl
        · cases h1
        · rfl
    · have pa' : s.poll a = true := pa.resolve_right (fun h => h0 h.2)
      have pb' : s.poll b = true := pb.resolve_right (fun h => h0 h.2)
      have hpi : s.poll i = false := hf i hi
      rcases ha' with h1 | rfl
      · rcases hb' with h2 | rfl
        · exact h.1 a h1 b h2 pa' pb'
        · rw [hpi] at pb'; cases pb'
      · rw [hpi] at pa'; cases pa'
  · intro a h1
    rw [ha] at h1
    have hnil : active s = [] := by
      cases hs : active s with
      | nil => rfl
      | cons x l => rw [hs] at h1; simp at h1
    rw [hnil, List.nil_append, List.cons.injEq] at h1
    obtain ⟨rfl, -⟩ := h1
    rw [join_poll s i i hr hi]
    right
    refine ⟨Or.inr rfl, ?_⟩
    rw [hcount, hnil]; rfl

theorem leave_poll (s : State) (i j : Nat) (hi : i ∈ s.reg) :
    (s.leave i).poll j = true ↔ (j ≠ i ∧ s.poll j = true) ∨ (j ∈ s.reg ∧ s.count = 2) := by
  simp only [State.leave, if_pos hi]
  rw [add_poll]
  dsimp only
  constructor
  · rintro (h | ⟨h1, -, h3⟩)
    · split at h
      · cases h
      · exact Or.inl ⟨‹_›, h⟩
    · exact Or.inr ⟨h1, by omega⟩
  · rintro (⟨h1, h2⟩ | ⟨h1, h2⟩)
    · left; rw [if_neg h1]; exact h2
    · exact Or.inr ⟨h1, by omega, by omega⟩

theorem active_disable (s : State) (i : Nat) (he : s.enabled i = true) :
    active (s.disable i) = (active (s.join i)).filter (fun j => j ≠ i) := by
  rw [disable_eq s i he]
  simp only [active, leave_reg, join_enabled, List.filter_filter]
  apply List.filter_congr
  intro x _
  by_cases h : x = i <;> simp [h]

theorem active_disable_joined (s : State) (i : Nat) (he : s.enabled i = true) :
    active (s.disable i) = (active s).filter (fun j => j ≠ i) := by
  rw [active_disable s i he]
  by_cases hc : s.ready = true ∧ i ∉ s.reg
  · rw [active_join s i he hc.1 hc.2, List.filter_append]
    simp
  · simp only [State.join, if_neg hc]

/-- What leaving does, once the connection has joined. -/
theorem chosen_leave (s : State) (i : Nat) (hinv : Inv s) (hi : i ∈ s.reg) (he : s.enabled i = true)
    (hb : (active s).length ≤ 255) (h : Chosen s) :
    Chosen { s.leave i with enabled := fun j => if j = i then false else s.enabled j } := by
  have hcount : s.count = (active s).length := by have := hinv.count; omega
  have ha : active { s.leave i with enabled := fun j => if j = i then false else s.enabled j } = (active s).filter (fun j => j ≠ i) := by
    simp only [active, leave_reg, List.filter_filter]
    apply List.filter_congr
    intro x _
    by_cases h : x = i <;> simp [h]
  have hia : i ∈ active s := (mem_active s i).mpr ⟨hi, he⟩
  have hlen : ((active s).filter (fun j => j ≠ i)).length + 1 = (active s).length := by
    have hn : (active s).Nodup := hinv.nodup.filter _
    have fd := filter_drop (active s) (fun _ => true) i hn
    rw [if_pos ⟨hia, rfl⟩] at fd
    have e : (active s).filter (fun j => if j = i then false else true) = (active s).filter (fun j => j ≠ i) := by
      apply List.filter_congr; intro x _; by_cases hx : x = i <;> simp [hx]
    rw [e] at fd
    rw [fd]
    simp
  refine ⟨?_, ?_⟩
  · intro a ha' b hb' pa pb
    rw [ha, List.mem_filter] at ha' hb'
    change (s.leave i).poll a = true at pa
    change (s.leave i).poll b = true at pb
    rw [leave_poll s i _ hi] at pa pb
    by_cases h2 : s.count = 2
    · have h1 : ((active s).filter (fun j => j ≠ i)).length = 1 := by omega
      obtain ⟨x, hx⟩ := List.length_eq_one_iff.mp h1
      have e1 : a ∈ (active s).filter (fun j => j ≠ i) := List.mem_filter.mpr ha'
      have e2 : b ∈ (active s).filter (fun j => j ≠ i) := List.mem_filter.mpr hb'
      rw [hx, List.mem_singleton] at e1 e2
      rw [e1, e2]
    · exact h.1 a ha'.1 b hb'.1 (pa.resolve_right (fun h => h2 h.2)).2 (pb.resolve_right (fun h => h2 h.2)).2
  · intro a h1
    rw [ha] at h1
    show (s.leave i).poll a = true
    rw [leave_poll s i a hi]
    right
    have : a ∈ (active s).filter (fun j => j ≠ i) := by rw [h1]; exact List.mem_singleton.mpr rfl
    refine ⟨((mem_active s a).mp (List.mem_filter.mp this).1).1, ?_⟩
    rw [h1] at hlen
    simp only [List.length_singleton] at hlen
    omega

theorem chosen_congr (s u : State) (h1 : active u = active s) (h2 : ∀ i ∈ active s, u.poll i = s.poll i) (h : Chosen s) : Chosen u := by
  refine ⟨?_, ?_⟩
  · intro i hi j hj pi pj
    rw [h1] at hi hj
    rw [h2 i hi] at pi
    rw [h2 j hj] at pj
    exact h.1 i hi j hj pi pj
  · intro i hi
    rw [h1] at hi
    rw [h2 i (by rw [hi]; exact List.mem_singleton.mpr rfl)]
    exact h.2 i hi

theorem chosen_join' (s : State) (i : Nat) (hinv : Inv s) (hf : Fresh s) (he : s.enabled i = true)
    (hb : (active s).length ≤ 255) (h : Chosen s) : Chosen (s.join i) := by
  by_cases hc : s.ready = true ∧ i ∉ s.reg
  · exact chosen_join s i hinv hf he hc.1 hc.2 hb h
  · simp only [State.join, if_neg hc]; exact h

/-- A connection that joins only to leave changes nothing for the others. -/
theorem pass_poll (s : State) (i j : Nat) (hinv : Inv s) (hr : s.ready = true) (hi : i ∉ s.reg) (hb : (active s).length ≤ 255)
    (hj : j ∈ active s) (h : Chosen s) : ((s.join i).leave i).poll j = s.poll j := by
  have hcount : s.count = (active s).length := by have := hinv.count; omega
  have hji : j ≠ i := fun e => hi (e ▸ ((mem_active s j).mp hj).1)
  have hreg : (s.join i).reg = s.reg ++ [i] := by
    simp [State.join, hr, hi, State.add]
  have hcj : (s.join i).count = (s.count + 1) % 256 := by
    simp only [State.join, if_pos (⟨hr, hi⟩ : s.ready = true ∧ i ∉ s.reg), State.add]
    omega
  have hpos : 0 < (active s).length := List.length_pos_of_mem hj
  have key : ((s.join i).leave i).poll j = true ↔ s.poll j = true := by
    rw [leave_poll _ _ _ (by rw [hreg]; simp), join_poll s i j hr hi]
    constructor
    · rintro (⟨-, h1 | ⟨-, h1⟩⟩ | ⟨-, h1⟩)
      · exact h1
      · omega
      · rw [hcj] at h1
        have h1' : (active s).length = 1 := by omega
        obtain ⟨x, hx⟩ := List.length_eq_one_iff.mp h1'
        rw [hx, List.mem_singleton] at hj
        rw [hj]
        exact h.2 x hx
    · intro h1
      exact Or.inl ⟨hji, Or.inl h1⟩
  cases h1 : s.poll j with
  | true => exact key.mpr h1
  | false =>
    cases h2 : ((s.join i).leave i).poll j with
    | true => rw [key.mp h2] at h1; cases h1
    | false => rfl

theorem chosen_step (s : State) (e : Ev) (hinv : Inv s) (hf : Fresh s) (hb : (active s).length ≤ 255)
    (h : Chosen s) : Chosen (step s e) := by
  cases e with
  | ready => exact h
  | connect i =>
    simp only [step]
    split
    · exact h
    · rename_i hi
      refine chosen_congr s _ ?_ (fun _ _ => rfl) h
      simp only [active]
      exact filter_new _ _ _ hi
  | start i =>
    simp only [step]
    split
    · exact chosen_join' s i hinv hf ‹_› hb h
    · exact h
  | frame i t g =>
    simp only [step, State.frame]
    split
    · have := chosen_join' s i hinv hf ‹_› hb h
      split
      · exact this
      · exact this
    · exact h
  | disable i =>
    simp only [step]
    by_cases he : s.enabled i = true
    · by_cases hc : s.ready = true ∧ i ∉ s.reg
      · have hd := active_disable_joined s i he
        have hni : i ∉ active s := fun hm => hc.2 ((mem_active s i).mp hm).1
        have hf2 : (active s).filter (fun j => j ≠ i) = active s := by
          rw [List.filter_eq_self]
          intro a ha
          simp only [ne_eq, decide_eq_true_eq]
          exact fun e => hni (e ▸ ha)
        refine chosen_congr s _ (hd.trans hf2) ?_ h
        intro j hj
        rw [disable_eq s i he]
        exact pass_poll s i j hinv hc.1 hc.2 hb hj h
      · rw [disable_eq s i he]
        have hj : s.join i = s := by simp only [State.join, if_neg hc]
        rw [hj]
        by_cases hi : i ∈ s.reg
        · exact chosen_leave s i hinv hi he hb h
        · refine chosen_congr s _ ?_ ?_ h
          · simp only [active, leave_reg]
            apply List.filter_congr
            intro x hx
            have : x ≠ i := by rintro rfl; exact hi hx
            rw [if_neg this]
          · intro j _
            simp only [State.leave, if_neg hi]
    · simp only [State.disable, he, Bool.false_eq_true, if_false]; exact h

/-- As long as there have never been more than 255 at once: no two enabled connections poll the UI struct, and a
connection that is alone does. -/
theorem C86_one (t : List Ev) (hb : ∀ t', t' <+: t → (active (run .init t')).length ≤ 255) : Chosen (run .init t) := by
  have key : ∀ (t : List Ev) (s : State), Inv s → Fresh s → (∀ t', t' <+: t → (active (run s t')).length ≤ 255) → Chosen s →
      Chosen (run s t) := by
    intro t
    induction t with
    | nil => intro s _ _ _ h; exact h
    | cons e t ih =>
      intro s hi hf hb h
      refine ih (step s e) (inv_step s e hi) (fresh_step s e hf) ?_ (chosen_step s e hi hf (hb [] (List.nil_prefix)) h)
      intro t' ht'
      exact hb (e :: t') (List.cons_prefix_cons.mpr ⟨rfl, ht'⟩)
  refine key t _ inv_init fresh_init hb ⟨?_, ?_⟩
  · intro i hi; cases hi
  · intro i hi; cases hi

/-- The frames of a connection that is alone set the struct's time, as often as the rate limiter lets them. -/
theorem C86_alone (t : List Ev) (hb : ∀ t', t' <+: t → (active (run .init t')).length ≤ 255) (i : Nat)
    (ha : active (run .init t) = [i]) (x : Int) : (step (run .init t) (.frame i x true)).time = x := by
  have hp := (C86_one t hb).2 i ha
  have hm : i ∈ active (run .init t) := by rw [ha]; exact List.mem_singleton.mpr rfl
  obtain ⟨hr, he⟩ := (mem_active _ i).mp hm
  have hj : (run .init t).join i = run .init t := by
    simp only [State.join]
    rw [if_neg (fun h => h.2 hr)]
  simp only [step, State.frame, he, if_true, hj]
  rw [if_pos ⟨hr, hp, trivial⟩]

/-- When the polling connection leaves at least two others, nobody takes over: with none polling, the struct stands
still whatever frames arrive and whoever joins or leaves, as long as two remain. -/
theorem C86_silent_fails (t : List Ev) (s : State) (hinv : Inv s) (hf : Fresh s) (hs : Silent s)
    (hb : ∀ t', t' <+: t → 2 ≤ (active (run s t')).length ∧ (active (run s t')).length ≤ 255) :
    Silent (run s t) ∧ (run s t).time = s.time := by
  induction t generalizing s with
  | nil => exact ⟨hs, rfl⟩
  | cons e t ih =>
    have h0 := hb [] List.nil_prefix
    change 2 ≤ (active s).length ∧ (active s).length ≤ 255 at h0
    have h1 := hb [e] (List.cons_prefix_cons.mpr ⟨rfl, List.nil_prefix⟩)
    change 2 ≤ (active (step s e)).length ∧ _ at h1
    have hcount : s.count = (active s).length := by have := hinv.count; omega
    have joined : ∀ i, s.enabled i = true → Silent (s.join i) ∧ (s.join i).time = s.time := by
      intro i he
      by_cases hc : s.ready = true ∧ i ∉ s.reg
      · refine ⟨?_, by simp only [State.join, if_pos hc, State.add]⟩
        intro j hj
        rw [active_join s i he hc.1 hc.2, List.mem_append, List.mem_singleton] at hj
        have : ¬ (s.join i).poll j = true := by
          rw [join_poll s i j hc.1 hc.2]
          rintro (h | ⟨-, h⟩)
          · rcases hj with hj | rfl
            · rw [hs j hj] at h; cases h
            · rw [hf j hc.2] at h; cases h
          · omega
        simpa using this
      · simp only [State.join, if_neg hc]; exact ⟨hs, trivial⟩
    have key : Silent (step s e) ∧ (step s e).time = s.time := by
      cases e with
      | ready => exact ⟨hs, rfl⟩
      | connect i =>
        simp only [step]
        split
        · exact ⟨hs, rfl⟩
        · rename_i hi
          refine ⟨?_, rfl⟩
          intro j hj
          have : j ∈ active s := by
            simp only [active] at hj ⊢
            rw [filter_new _ _ _ hi] at hj
            exact hj
          exact hs j this
      | start i =>
        simp only [step]
        split
        · exact joined i ‹_›
        · exact ⟨hs, rfl⟩
      | frame i x g =>
        simp only [step, State.frame]
        by_cases he : s.enabled i = true
        · rw [if_pos he]
          obtain ⟨j1, j2⟩ := joined i he
          by_cases hc : i ∈ (s.join i).reg ∧ (s.join i).poll i = true ∧ g = true
          · have hm : i ∈ active (s.join i) := (mem_active _ i).mpr ⟨hc.1, by rw [join_enabled]; exact he⟩
            have := j1 i hm
            rw [this] at hc
            exact absurd hc.2.1 (by decide)
          · rw [if_neg hc]; exact ⟨j1, j2⟩
        · rw [if_neg he]; exact ⟨hs, rfl⟩
      | disable i =>
        simp only [step] at h1 ⊢
        by_cases he : s.enabled i = true
        · obtain ⟨j1, j2⟩ := joined i he
          have hij := inv_join s i hinv he
          have ea := active_disable s i he
          rw [disable_eq s i he]
          by_cases hi : i ∈ (s.join i).reg
          · refine ⟨?_, ?_⟩
            · intro j hj
              rw [disable_eq s i he] at ea
              rw [ea, List.mem_filter] at hj
              show ((s.join i).leave i).poll j = false
              have : ¬ ((s.join i).leave i).poll j = true := by
                rw [leave_poll _ _ _ hi]
                rintro (⟨-, h⟩ | ⟨-, h⟩)
                · rw [j1 j hj.1] at h; cases h
                · have hia : i ∈ active (s.join i) := (mem_active _ i).mpr ⟨hi, by rw [join_enabled]; exact he⟩
                  have fd := filter_drop (active (s.join i)) (fun _ => true) i (hij.nodup.filter _)
                  rw [if_pos ⟨hia, rfl⟩] at fd
                  have e2 : (active (s.join i)).filter (fun j => if j = i then false else true) = (active (s.join i)).filter (fun j => j ≠ i) := by
                    apply List.filter_congr; intro x _; by_cases hx : x = i <;> simp [hx]
                  rw [e2, List.filter_eq_self.mpr (fun _ _ => rfl)] at fd
                  have hl := h1.1
                  rw [active_disable s i he] at hl
                  have hc2 := hij.count
                  have hle : (active (s.join i)).length ≤ 256 := by
                    by_cases hc : s.ready = true ∧ i ∉ s.reg
                    · rw [active_join s i he hc.1 hc.2, List.length_append, List.length_singleton]; omega
                    · simp only [State.join, if_neg hc]; omega
                  omega
              simpa using this
            · show ((s.join i).leave i).time = s.time
              simp only [State.leave, if_pos hi, State.add]; exact j2
          · refine ⟨?_, ?_⟩
            · intro j hj
              rw [disable_eq s i he] at ea
              rw [ea, List.mem_filter] at hj
              show ((s.join i).leave i).poll j = false
              simp only [State.leave, if_neg hi]
              exact j1 j hj.1
            · show ((s.join i).leave i).time = s.time
              simp only [State.leave, if_neg hi]; exact j2
        · simp only [State.disable, he, Bool.false_eq_true, if_false]; exact ⟨hs, trivial⟩
    have := ih (step s e) (inv_step s e hinv) (fresh_step s e hf) key.1 (fun t' ht' => hb (e :: t') (List.cons_prefix_cons.mpr ⟨rfl, ht'⟩))
    exact ⟨this.1, this.2.trans key.2⟩

/-- The 257th connection makes all of them poll: eight bits count to 256 as 0. -/
theorem C86_wrap_fails (s : State) (hinv : Inv s) (h : (active s).length = 256) (hr : s.ready = true) (i : Nat)
    (hi : i ∉ s.reg) (he : s.enabled i = true) :
    (active (step s (.start i))).length = 257 ∧ (step s (.start i)).count = 1 ∧ ∀ j ∈ active (step s (.start i)), (step s (.start i)).poll j = true := by
  have hc : s.count = 0 := by have := hinv.count; rw [h] at this; exact this
  simp only [step, he, if_true]
  rw [active_join s i he hr hi]
  refine ⟨by simp [h], by simp [State.join, hr, hi, State.add, hc], ?_⟩
  intro j hj
  rw [join_poll s i j hr hi]
  rw [List.mem_append, List.mem_singleton] at hj
  exact Or.inr ⟨hj.imp (fun h => ((mem_active s j).mp h).1) id, hc⟩

/-- Callbacks are never removed: those of closed connections stay. -/
theorem C86_leak_fails (t : List Ev) (s : State) : s.reg <+: (run s t).reg := by
  induction t generalizing s with
  | nil => exact List.prefix_refl _
  | cons e t ih =>
    refine List.IsPrefix.trans ?_ (ih (step s e))
    have hj : ∀ i, s.reg <+: (s.join i).reg := by
      intro i
      simp only [State.join]
      split
      · exact List.prefix_append _ _
      · exact List.prefix_refl _
    cases e with
    | ready => exact List.prefix_refl _
    | connect i => simp only [step]; split <;> exact List.prefix_refl _
    | start i => simp only [step]; split; exact hj i; exact List.prefix_refl _
    | frame i x g =>
      simp only [step, State.frame]
      split
      · split <;> exact hj i
      · exact List.prefix_refl _
    | disable i =>
      simp only [step]
      by_cases he : s.enabled i = true
      · rw [disable_eq s i he]
        show s.reg <+: ((s.join i).leave i).reg
        rw [leave_reg]
        exact hj i
      · simp only [State.disable, he, Bool.false_eq_true, if_false]; exact List.prefix_refl _

/-- Any number of connections can be open at once. -/
def opened (n : Nat) : List Ev := .ready :: (List.range n).flatMap fun i => [.connect i, .start i]

theorem opened_reg (n : Nat) : (run .init (opened n)).ready = true ∧ (run .init (opened n)).reg = List.range n ∧
    (∀ i, (run .init (opened n)).enabled i = decide (i < n)) := by
  induction n with
  | zero => exact ⟨rfl, rfl, fun i => by simp [opened, run, step, State.init]⟩
  | succ n ih =>
    obtain ⟨h1, h2, h3⟩ := ih
    have e : run .init (opened (n + 1)) = step (step (run .init (opened n)) (.connect n)) (.start n) := by
      simp [opened, run, List.range_succ, List.flatMap_append, List.foldl_append]
    have hn : n ∉ (run .init (opened n)).reg := by rw [h2]; simp
    rw [e]
    generalize run .init (opened n) = s at *
    have e1 : step s (.connect n) = { s with enabled := fun j => if j = n then true else s.enabled j } := by
      simp only [step, if_neg hn]
    rw [e1]
    simp only [step, if_true, State.join, h1]
    rw [if_pos ⟨trivial, hn⟩]
    refine ⟨rfl, by simp [State.add, h2, List.range_succ], ?_⟩
    intro i
    simp only [State.add]
    by_cases hi : i = n
    · subst hi; simp
    · rw [if_neg hi, h3 i]
      simp only [decide_eq_decide]
      omega

theorem C86_cases :
    -- three open, the first leaves: two are left and neither polls
    (active (run .init (opened 3 ++ [.disable 0])) = [1, 2] ∧ Silent (run .init (opened 3 ++ [.disable 0]))) ∧
    -- two open, the first leaves: the other takes over
    (run .init (opened 2 ++ [.disable 0])).poll 1 = true ∧
    -- 256 can be open
    (active (run .init (opened 256))).length = 256 := by
  refine ⟨⟨by decide, ?_⟩, by decide, ?_⟩
  · intro i hi
    have : i ∈ ([1, 2] : List Nat) := hi
    simp only [List.mem_cons, List.not_mem_nil, or_false] at this
    rcases this with rfl | rfl <;> decide
  · obtain ⟨-, h2, h3⟩ := opened_reg 256
    rw [active, h2, List.filter_eq_self.mpr (fun a ha => by rw [h3 a]; simpa using ha), List.length_range]

end Verif.Server.UiCount
