import Verif.Server.Tabs
import Verif.Env.LoadLemmas
import Mathlib.Data.List.Nodup
/-!
C69: what holds between the callbacks on the primitives and the dictionaries of the tab states, and what
each operation does to it.
-/
set_option linter.unusedSectionVars false

namespace Verif.Tabs

open Verif.Environment (mem_dget dset_nodup)

variable {R V : Type} [DecidableEq R] [DecidableEq V]

/-- What the browser of tab `i` shows for each name when one more message has arrived: the last value it was
sent (data/js/classes/TabInterface.js 369–406). -/
def see (i : Nat) (s : String → Option V) (m : Nat × Msg V) : String → Option V :=
  if m.1 = i then
    match m.2 with
    | .values d => fun n => (dget d n) <|> s n
    | .points d => fun n => (((dget d n).getD []).getLast?.map Prod.fst) <|> s n
  else s

/-- What the browser of tab `i` shows after these messages. -/
def view (i : Nat) (out : List (Nat × Msg V)) : String → Option V :=
  out.foldl (see i) (fun _ => none)

/-- The points for `n` that one message brings to tab `i`. -/
def brings (i : Nat) (n : String) (m : Nat × Msg V) : List (V × Int) :=
  if m.1 = i then
    match m.2 with
    | .values _ => []
    | .points d => (dget d n).getD []
  else []

/-- The points for `n` delivered to tab `i`, in order. -/
def delivered (i : Nat) (n : String) (out : List (Nat × Msg V)) : List (V × Int) := out.flatMap (brings i n)

/-- The points for `n` that tab `i` has yet to send. -/
def pending (W : World R V) (i : Nat) (n : String) : List (V × Int) := (dget (W.tabs i).points n).getD []

/-- The assignments to primitive `p` that differ from what it holds at the time, with what is stored. -/
def changes (E : Env R V) (p : Nat) : R → List (Op R) → List (R × Int)
  | _, [] => []
  | old, .write q v t :: ops =>
    if q = p then (if old ≠ v then [(E.store p v, t)] else []) ++ changes E p (E.store p v) ops
    else changes E p old ops
  | old, _ :: ops => changes E p old ops

/-- Where a browser stands: the tab is hidden, or shown (`true`: no assignment since its last frame), or the
connection is closed. -/
inductive Status where
  | hidden
  | shown (calm : Bool)
  | closed
  deriving DecidableEq, Repr

def Status.isShown : Status → Bool
  | .shown _ => true
  | _ => false

/-- One message of a browser that alternates between showing and hiding and says nothing after closing.
With `strict`, it also fetches a frame between the last assignment and hiding the tab. -/
def follow1 (strict : Bool) (st : Nat → Status) : Op R → Option (Nat → Status)
  | .write _ _ _ => some (fun i => match st i with
    | .shown _ => .shown false
    | s => s)
  | .shown i => if st i = .hidden then some (upd st i (.shown true)) else none
  | .hidden i =>
    match st i with
    | .shown calm => if strict && !calm then none else some (upd st i .hidden)
    | _ => none
  | .frame i =>
    match st i with
    | .shown _ => some (upd st i (.shown true))
    | _ => some st
  | .close i => if st i = .closed then none else some (upd st i .closed)

/-- Several messages. -/
def follow (strict : Bool) : (Nat → Status) → List (Op R) → Option (Nat → Status)
  | st, [] => some st
  | st, op :: ops =>
    match follow1 strict st op with
    | none => none
    | some st1 => follow strict st1 ops

/-- At the start every tab is hidden. -/
def atStart : Nat → Status := fun _ => .hidden

/-- The value `v` can be shown for every name of primitive `p`, as a value that is `ok`. -/
def Fits (E : Env R V) (ok : V → Prop) (p : Nat) (r : R) : Prop :=
  ∀ n ∈ E.names, E.prim n = p → ∃ x, E.render n r = some x ∧ ok x

/-- Every assignment stores a value that can be shown. -/
def AllFit (E : Env R V) (ok : V → Prop) (ops : List (Op R)) : Prop :=
  ∀ p v t, Op.write p v t ∈ ops → Fits E ok p (E.store p v)

/-! ### The invariant -/

/-- Callbacks and dictionaries agree; `act i n` says that tab `i` observes `n`. -/
structure Inv (E : Env R V) (act : Nat → String → Prop) (W : World R V) : Prop where
  fresh : ∀ p, ∀ q ∈ (W.prims p).cbs, q.1 < (W.prims p).next
  nodup : ∀ p, ((W.prims p).cbs.map Prod.fst).Nodup
  live : ∀ i n, act i n → ∃ id, dget (W.tabs i).callbacks n = some id ∧ (id, (i, n)) ∈ (W.prims (E.prim n)).cbs
  keys : ∀ i n id, dget (W.tabs i).callbacks n = some id →
    act i n ∧ dget (W.tabs i).primitives n = some (E.prim n)
  back : ∀ p id i n, (id, (i, n)) ∈ (W.prims p).cbs → E.prim n = p ∧ dget (W.tabs i).callbacks n = some id
  dict : ∀ i, ((W.tabs i).callbacks.map Prod.fst).Nodup
  quiet : ∀ i, (∀ n, ¬ act i n) → (W.tabs i).points = []

theorem upd_self {α : Type} (f : Nat → α) (i : Nat) (x : α) : upd f i x i = x := by simp [upd]
theorem upd_ne {α : Type} (f : Nat → α) {i j : Nat} (x : α) (h : j ≠ i) : upd f i x j = f j := by
  simp [upd, h]

/-- Two tab states that differ in their points only. -/
def Tab.Like (T T' : Tab V) : Prop :=
  T'.shown = T.shown ∧ T'.primitives = T.primitives ∧ T'.callbacks = T.callbacks ∧ T'.latest = T.latest

theorem Inv.pairs {E : Env R V} {act : Nat → String → Prop} {W : World R V} (h : Inv E act W) (p : Nat) :
    ((W.prims p).cbs.map Prod.snd).Nodup := by
  refine List.Nodup.map_on ?_ (List.Nodup.of_map _ (h.nodup p))
  rintro ⟨a, i, n⟩ ha ⟨b, j, m⟩ hb hab
  simp only [Prod.mk.injEq] at hab
  obtain ⟨rfl, rfl⟩ := hab
  have h1 := (h.back _ _ _ _ ha).2
  have h2 := (h.back _ _ _ _ hb).2
  rw [h1] at h2
  cases h2
  rfl

theorem Inv.unique {E : Env R V} {act : Nat → String → Prop} {W : World R V} (h : Inv E act W) {p id : Nat}
    {a b : Nat × String} (ha : (id, a) ∈ (W.prims p).cbs) (hb : (id, b) ∈ (W.prims p).cbs) : a = b := by
  have := List.inj_on_of_nodup_map (h.nodup p) ha hb rfl
  cases this; rfl

/-! ### Assignments -/

theorem notifyAll_ok (E : Env R V) (l : List (Nat × (Nat × String))) (W : World R V)
    (hnd : (l.map Prod.snd).Nodup)
    (hr : ∀ id i n, (id, (i, n)) ∈ l → ∃ x, E.render n (W.prims (E.prim n)).raw = some x) :
    (notifyAll E W l).2 = none ∧ (notifyAll E W l).1.prims = W.prims ∧
    (∀ j, Tab.Like (W.tabs j) ((notifyAll E W l).1.tabs j)) ∧
    (∀ j m x, (j, m) ∈ l.map Prod.snd → E.render m (W.prims (E.prim m)).raw = some x →
      pending (notifyAll E W l).1 j m = pending W j m ++ [(x, (W.prims (E.prim m)).stamp)]) ∧
    (∀ j m, (j, m) ∉ l.map Prod.snd → pending (notifyAll E W l).1 j m = pending W j m) ∧
    (∀ j, (∀ m, (j, m) ∉ l.map Prod.snd) → (notifyAll E W l).1.tabs j = W.tabs j) := by
  induction l generalizing W with
  | nil =>
    refine ⟨rfl, rfl, fun j => ⟨rfl, rfl, rfl, rfl⟩, ?_, fun j m _ => rfl, fun j _ => rfl⟩
    intro j m x h; simp at h
  | cons q rest ih =>
    obtain ⟨id, i, n⟩ := q
    obtain ⟨x, hx⟩ := hr id i n (by simp)
    have hn : notify E W i n = (⟨W.prims, upd W.tabs i ⟨(W.tabs i).shown,
        dset (W.tabs i).points n (((dget (W.tabs i).points n).getD []) ++ [(x, (W.prims (E.prim n)).stamp)]),
        (W.tabs i).primitives, (W.tabs i).callbacks, (W.tabs i).latest⟩⟩, none) := by
      simp only [notify, hx]
    set W1 : World R V := ⟨W.prims, upd W.tabs i ⟨(W.tabs i).shown,
        dset (W.tabs i).points n (((dget (W.tabs i).points n).getD []) ++ [(x, (W.prims (E.prim n)).stamp)]),
        (W.tabs i).primitives, (W.tabs i).callbacks, (W.tabs i).latest⟩⟩ with hW1
    have hcons : notifyAll E W ((id, (i, n)) :: rest) = notifyAll E W1 rest := by
      simp only [notifyAll, hn]
    rw [hcons]
    simp only [List.map_cons, List.nodup_cons] at hnd
    obtain ⟨g1, g2, g3, g4, g5, g6⟩ := ih W1 hnd.2 (fun id' j m hm => hr id' j m (by simp [hm]))
    have hp1 : ∀ j m, pending W1 j m = if j = i ∧ m = n then pending W j m ++ [(x, (W.prims (E.prim n)).stamp)]
        else pending W j m := by
      intro j m
      by_cases hj : j = i
      · subst hj
        by_cases hm : m = n
        · subst hm
          simp [pending, hW1, upd_self, dget_dset_self]
        · simp [pending, hW1, upd_self, dget_dset_ne _ _ _ _ (Ne.symm hm), hm]
      · simp [pending, hW1, upd_ne _ _ hj, hj]
    refine ⟨g1, g2, ?_, ?_, ?_, ?_⟩
    · intro j
      have := g3 j
      by_cases hj : j = i
      · subst hj
        simp only [hW1, upd_self, Tab.Like] at this
        exact this
      · simp only [hW1, upd_ne _ _ hj, Tab.Like] at this
        exact this
    · intro j m y hjm hy
      simp only [List.map_cons, List.mem_cons] at hjm
      by_cases hjn : (j, m) = (i, n)
      · cases hjn
        rw [g5 i n hnd.1, hp1, if_pos ⟨rfl, rfl⟩]
        rw [hx] at hy; cases hy; rfl
      · rcases hjm with hjm | hjm
        · exact absurd hjm hjn
        · rw [g4 j m y hjm hy, hp1, if_neg (by rintro ⟨rfl, rfl⟩; exact hjn rfl)]
    · intro j m hjm
      simp only [List.map_cons, List.mem_cons, not_or] at hjm
      rw [g5 j m hjm.2, hp1, if_neg (by rintro ⟨rfl, rfl⟩; exact hjm.1 rfl)]
    · intro j hj
      have hji : j ≠ i := by rintro rfl; exact hj n (by simp)
      rw [g6 j (fun m hm => hj m (by simp [hm]))]
      simp only [hW1, upd_ne _ _ hji]

/-- The state between storing a value and calling the callbacks. -/
def stored (E : Env R V) (W : World R V) (p : Nat) (v : R) (t : Int) : World R V :=
  ⟨upd W.prims p ⟨E.store p v, t, (W.prims p).next, (W.prims p).cbs⟩, W.tabs⟩

theorem write_eq (E : Env R V) (W : World R V) (p : Nat) (v : R) (t : Int) :
    write E W p v t = if (W.prims p).raw ≠ v then notifyAll E (stored E W p v t) (W.prims p).cbs
      else (stored E W p v t, none) := rfl

theorem stored_prim (E : Env R V) (W : World R V) (p : Nat) (v : R) (t : Int) (q : Nat) :
    ((stored E W p v t).prims q).cbs = (W.prims q).cbs ∧ ((stored E W p v t).prims q).next = (W.prims q).next ∧
    ((stored E W p v t).prims q).raw = if q = p then E.store p v else (W.prims q).raw := by
  by_cases h : q = p
  · subst h; simp [stored, upd_self]
  · simp [stored, upd_ne _ _ h, h]

/-- An invariant only looks at callbacks, identifiers, dictionaries and points. -/
theorem Inv.transfer {E : Env R V} {act : Nat → String → Prop} {W W' : World R V} (h : Inv E act W)
    (h1 : ∀ p, (W'.prims p).cbs = (W.prims p).cbs ∧ (W'.prims p).next = (W.prims p).next)
    (h2 : ∀ i, (W'.tabs i).primitives = (W.tabs i).primitives ∧ (W'.tabs i).callbacks = (W.tabs i).callbacks)
    (h3 : ∀ i, (W.tabs i).points = [] → (∀ n, ¬ act i n) → (W'.tabs i).points = []) : Inv E act W' where
  fresh p q hq := by rw [(h1 p).1] at hq; rw [(h1 p).2]; exact h.fresh p q hq
  nodup p := by rw [(h1 p).1]; exact h.nodup p
  live i n ha := by
    obtain ⟨id, a, b⟩ := h.live i n ha
    exact ⟨id, by rw [(h2 i).2]; exact a, by rw [(h1 _).1]; exact b⟩
  keys i n id hd := by
    rw [(h2 i).2] at hd
    rw [(h2 i).1]
    exact h.keys i n id hd
  back p id i n hm := by
    rw [(h1 p).1] at hm
    rw [(h2 i).2]
    exact h.back p id i n hm
  dict i := by rw [(h2 i).2]; exact h.dict i
  quiet i ha := h3 i (h.quiet i ha) ha

/-- What an assignment does when every value can be shown. -/
theorem write_ok {E : Env R V} {act : Nat → String → Prop} {W : World R V} (h : Inv E act W)
    (hact : ∀ i n, act i n → n ∈ E.names) (p : Nat) (v : R) (t : Int)
    (hf : ∀ n ∈ E.names, E.prim n = p → ∃ x, E.render n (E.store p v) = some x) :
    (write E W p v t).2 = none ∧ Inv E act (write E W p v t).1 ∧
    (∀ q, ((write E W p v t).1.prims q).raw = if q = p then E.store p v else (W.prims q).raw) ∧
    (∀ j, ((write E W p v t).1.tabs j).latest = (W.tabs j).latest) ∧
    (∀ j m x, act j m → E.render m (E.store p v) = some x → E.prim m = p → (W.prims p).raw ≠ v →
      pending (write E W p v t).1 j m = pending W j m ++ [(x, t)]) ∧
    (∀ j m, (act j m → E.prim m = p → (W.prims p).raw = v) →
      pending (write E W p v t).1 j m = pending W j m) := by
  have hs : Inv E act (stored E W p v t) := h.transfer
    (fun q => ⟨(stored_prim E W p v t q).1, (stored_prim E W p v t q).2.1⟩) (fun i => ⟨rfl, rfl⟩)
    (fun i hi _ => hi)
  rw [write_eq]
  by_cases hv : (W.prims p).raw ≠ v
  · rw [if_pos hv]
    have hmem : ∀ id i n, (id, (i, n)) ∈ (W.prims p).cbs → E.prim n = p ∧ act i n := by
      intro id i n hm
      have := h.back p id i n hm
      exact ⟨this.1, (h.keys i n id this.2).1⟩
    obtain ⟨g1, g2, g3, g4, g5, g6⟩ := notifyAll_ok E (W.prims p).cbs (stored E W p v t) (h.pairs p)
      (by
        intro id i n hm
        obtain ⟨ha, hb⟩ := hmem id i n hm
        obtain ⟨x, hx⟩ := hf n (hact _ _ hb) ha
        exact ⟨x, by rw [(stored_prim E W p v t _).2.2, if_pos ha]; exact hx⟩)
    refine ⟨g1, ?_, ?_, ?_, ?_, ?_⟩
    · refine hs.transfer (fun q => by rw [g2]; exact ⟨rfl, rfl⟩) (fun i => ⟨(g3 i).2.1, (g3 i).2.2.1⟩) ?_
      intro i hi hact'
      rw [g6 i]
      · exact hi
      · intro m hm
        simp only [List.mem_map, Prod.exists, Prod.mk.injEq] at hm
        obtain ⟨id, a, b, hm, rfl, rfl⟩ := hm
        exact hact' _ (hmem _ _ _ hm).2
    · intro q
      rw [g2]
      exact (stored_prim E W p v t q).2.2
    · intro j; exact (g3 j).2.2.2
    · intro j m x ha hx hp _
      obtain ⟨id, _, hid⟩ := h.live j m ha
      rw [hp] at hid
      have := g4 j m x (List.mem_map.mpr ⟨(id, (j, m)), hid, rfl⟩)
        (by rw [(stored_prim E W p v t _).2.2, if_pos hp]; exact hx)
      rw [this]
      have : ((stored E W p v t).prims (E.prim m)).stamp = t := by simp [stored, hp, upd_self]
      rw [this]
      rfl
    · intro j m hq
      rw [g5 j m]
      · rfl
      · intro hm
        simp only [List.mem_map, Prod.exists, Prod.mk.injEq] at hm
        obtain ⟨id, a, b, hm, rfl, rfl⟩ := hm
        exact hv (hq (hmem _ _ _ hm).2 (hmem _ _ _ hm).1)
  · rw [if_neg hv]
    refine ⟨rfl, hs, fun q => (stored_prim E W p v t q).2.2, fun j => rfl, ?_, fun j m _ => rfl⟩
    intro j m x _ _ _ hne
    exact absurd hne hv

/-! ### Showing -/

theorem setup_inv {E : Env R V} {act : Nat → String → Prop} {W : World R V} (h : Inv E act W) (i : Nat)
    (n : String) (hn : ¬ act i n) :
    Inv E (fun j m => act j m ∨ (j = i ∧ m = n)) (setup E W i n) where
  fresh p q hq := by
    by_cases hp : p = E.prim n
    · subst hp
      simp only [setup, upd_self, List.mem_append, List.mem_singleton] at hq ⊢
      rcases hq with hq | rfl
      · have := h.fresh _ q hq; omega
      · simp
    · simp only [setup, upd_ne _ _ hp] at hq ⊢
      exact h.fresh p q hq
  nodup p := by
    by_cases hp : p = E.prim n
    · subst hp
      simp only [setup, upd_self, List.map_append, List.map_cons, List.map_nil]
      rw [List.nodup_append]
      refine ⟨h.nodup _, by simp, ?_⟩
      intro a ha b hb
      simp only [List.mem_singleton] at hb
      subst hb
      obtain ⟨q, hq, rfl⟩ := List.mem_map.mp ha
      have := h.fresh _ q hq
      omega
    · simp only [setup, upd_ne _ _ hp]
      exact h.nodup p
  live j m hjm := by
    by_cases hjn : j = i ∧ m = n
    · obtain ⟨rfl, rfl⟩ := hjn
      exact ⟨(W.prims (E.prim m)).next, by simp [setup, upd_self, dget_dset_self], by simp [setup, upd_self]⟩
    · obtain ⟨id, a, b⟩ := h.live j m (hjm.resolve_right hjn)
      refine ⟨id, ?_, ?_⟩
      · by_cases hj : j = i
        · subst hj
          have hm : n ≠ m := by rintro rfl; exact hjn ⟨rfl, rfl⟩
          simp only [setup, upd_self, dget_dset_ne _ _ _ _ hm]
          exact a
        · simp only [setup, upd_ne _ _ hj]
          exact a
      · by_cases hp : E.prim m = E.prim n
        · simp only [setup, hp, upd_self, List.mem_append]
          rw [hp] at b
          exact .inl b
        · simp only [setup, upd_ne _ _ hp]
          exact b
  keys j m id hd := by
    by_cases hj : j = i
    · subst hj
      simp only [setup, upd_self] at hd ⊢
      by_cases hm : n = m
      · subst hm
        exact ⟨.inr ⟨by trivial, rfl⟩, by rw [dget_dset_self]⟩
      · rw [dget_dset_ne _ _ _ _ hm] at hd ⊢
        exact ⟨.inl (h.keys _ _ _ hd).1, (h.keys _ _ _ hd).2⟩
    · simp only [setup, upd_ne _ _ hj] at hd ⊢
      exact ⟨.inl (h.keys _ _ _ hd).1, (h.keys _ _ _ hd).2⟩
  back p id j m hm := by
    have hold : (id, (j, m)) ∈ (W.prims p).cbs →
        E.prim m = p ∧ dget ((setup E W i n).tabs j).callbacks m = some id := by
      intro hm
      have hb := h.back p id j m hm
      refine ⟨hb.1, ?_⟩
      by_cases hj : j = i
      · subst hj
        have hne : n ≠ m := by
          rintro rfl
          exact hn (h.keys _ _ _ hb.2).1
        simp only [setup, upd_self, dget_dset_ne _ _ _ _ hne]
        exact hb.2
      · simp only [setup, upd_ne _ _ hj]
        exact hb.2
    by_cases hp : p = E.prim n
    · subst hp
      simp only [setup, upd_self, List.mem_append, List.mem_singleton, Prod.mk.injEq] at hm
      rcases hm with hm | ⟨rfl, rfl, rfl⟩
      · exact hold hm
      · exact ⟨rfl, by simp [setup, upd_self, dget_dset_self]⟩
    · simp only [setup, upd_ne _ _ hp] at hm
      exact hold hm
  dict j := by
    by_cases hj : j = i
    · subst hj
      simp only [setup, upd_self]
      exact dset_nodup _ _ _ (h.dict _)
    · simp only [setup, upd_ne _ _ hj]
      exact h.dict j
  quiet j ha := by
    have := h.quiet j (fun m hm => ha m (.inl hm))
    by_cases hj : j = i
    · subst hj
      simp only [setup, upd_self]
      exact this
    · simp only [setup, upd_ne _ _ hj]
      exact this

/-- Two states that differ in callbacks and dictionaries of callbacks only. -/
structure Near (W W' : World R V) : Prop where
  raw : ∀ p, (W'.prims p).raw = (W.prims p).raw
  points : ∀ i, (W'.tabs i).points = (W.tabs i).points
  latest : ∀ i, (W'.tabs i).latest = (W.tabs i).latest

theorem Near.refl (W : World R V) : Near W W := ⟨fun _ => rfl, fun _ => rfl, fun _ => rfl⟩

theorem Near.trans {W W' W'' : World R V} (a : Near W W') (b : Near W' W'') : Near W W'' :=
  ⟨fun p => (b.raw p).trans (a.raw p), fun p => (b.points p).trans (a.points p),
    fun p => (b.latest p).trans (a.latest p)⟩

theorem setup_near (E : Env R V) (W : World R V) (i : Nat) (n : String) : Near W (setup E W i n) where
  raw p := by
    by_cases hp : p = E.prim n
    · subst hp; simp [setup, upd_self]
    · simp [setup, upd_ne _ _ hp]
  points j := by
    by_cases hj : j = i
    · subst hj; simp [setup, upd_self]
    · simp [setup, upd_ne _ _ hj]
  latest j := by
    by_cases hj : j = i
    · subst hj; simp [setup, upd_self]
    · simp [setup, upd_ne _ _ hj]

theorem setups_near (E : Env R V) (i : Nat) (l : List String) (W : World R V) :
    Near W (l.foldl (fun w n => setup E w i n) W) := by
  induction l generalizing W with
  | nil => exact Near.refl W
  | cons n l ih => exact (setup_near E W i n).trans (ih _)

theorem Inv.congr {E : Env R V} {a b : Nat → String → Prop} {W : World R V} (h : Inv E a W)
    (hab : ∀ i n, a i n ↔ b i n) : Inv E b W := by
  have : a = b := by funext i n; exact propext (hab i n)
  exact this ▸ h

theorem setups_inv {E : Env R V} (i : Nat) (l : List String) (hl : l.Nodup) {act : Nat → String → Prop}
    {W : World R V} (h : Inv E act W) (hn : ∀ n ∈ l, ¬ act i n) :
    Inv E (fun j m => act j m ∨ (j = i ∧ m ∈ l)) (l.foldl (fun w n => setup E w i n) W) := by
  induction l generalizing W act with
  | nil => exact h.congr (by simp)
  | cons n l ih =>
    rw [List.nodup_cons] at hl
    have h1 := setup_inv h i n (hn n (by simp))
    have h2 := ih hl.2 h1 (by
      rintro m hm (hc | ⟨_, rfl⟩)
      · exact hn m (by simp [hm]) hc
      · exact hl.1 hm)
    exact h2.congr (by intro j m; simp only [List.mem_cons]; tauto)

/-! ### Values -/

theorem values_ok (E : Env R V) (W : World R V) (l : List String)
    (hr : ∀ n ∈ l, ∃ x, E.render n (W.prims (E.prim n)).raw = some x) :
    ∃ d, values E W l = .ok d ∧ (∀ n x, n ∈ l → E.render n (W.prims (E.prim n)).raw = some x → E.nan x = false →
      dget d n = some x) ∧ (∀ n, n ∉ l → dget d n = none) ∧
      (∀ n x, dget d n = some x → E.render n (W.prims (E.prim n)).raw = some x ∧ E.nan x = false) ∧
      (l.Nodup → (d.map Prod.fst).Nodup) ∧ (∀ n ∈ d.map Prod.fst, n ∈ l) := by
  induction l with
  | nil => exact ⟨[], rfl, by simp, by simp [dget_nil], by simp [dget_nil], by simp, by simp⟩
  | cons n l ih =>
    obtain ⟨d, hd, h1, h2, h3, h4, h5⟩ := ih (fun m hm => hr m (by simp [hm]))
    obtain ⟨x, hx⟩ := hr n (by simp)
    by_cases hnan : E.nan x = true
    · refine ⟨d, by simp only [values, hx, hd, hnan, if_true], ?_, ?_, h3, ?_, ?_⟩
      · intro m y hm hy hnn
        by_cases hmn : m = n
        · subst hmn; rw [hx] at hy; cases hy; rw [hnan] at hnn; cases hnn
        · exact h1 m y (by simpa [hmn] using hm) hy hnn
      · intro m hm
        exact h2 m (by simp only [List.mem_cons, not_or] at hm; exact hm.2)
      · intro hnd; exact h4 (List.nodup_cons.mp hnd).2
      · intro m hm; exact List.mem_cons_of_mem _ (h5 m hm)
    · have hnan' : E.nan x = false := by simpa using hnan
      refine ⟨(n, x) :: d, by simp only [values, hx, hd, hnan']; rfl, ?_, ?_, ?_, ?_, ?_⟩
      · intro m y hm hy hnn
        rw [dget_cons]
        by_cases hmn : n = m
        · subst hmn; rw [hx] at hy; cases hy; simp
        · rw [if_neg hmn]
          exact h1 m y (by simpa [Ne.symm hmn] using hm) hy hnn
      · intro m hm
        simp only [List.mem_cons, not_or] at hm
        rw [dget_cons, if_neg (fun hc => hm.1 hc.symm)]
        exact h2 m hm.2
      · intro m y hy
        rw [dget_cons] at hy
        by_cases hmn : n = m
        · subst hmn; simp only [if_true] at hy; cases hy; exact ⟨hx, hnan'⟩
        · rw [if_neg hmn] at hy
          exact h3 m y hy
      · intro hnd
        rw [List.nodup_cons] at hnd
        simp only [List.map_cons, List.nodup_cons]
        exact ⟨fun hc => hnd.1 (h5 n hc), h4 hnd.2⟩
      · intro m hm
        simp only [List.map_cons, List.mem_cons] at hm ⊢
        exact hm.imp_right (h5 m)

theorem values_raises (E : Env R V) (W : World R V) (l : List String)
    (n : String) (hn : n ∈ l) (hr : E.render n (W.prims (E.prim n)).raw = none) :
    values E W l = .error .key := by
  induction l with
  | nil => cases hn
  | cons m l ih =>
    rcases hm : E.render m (W.prims (E.prim m)).raw with _ | x
    · simp only [values, hm]
    · have : n ≠ m := by rintro rfl; rw [hr] at hm; cases hm
      have hn' : n ∈ l := by simpa [this] using hn
      simp only [values, hm, ih hn']

theorem values_raw (E : Env R V) (W W' : World R V) (h : ∀ p, (W'.prims p).raw = (W.prims p).raw)
    (l : List String) : values E W' l = values E W l := by
  induction l with
  | nil => rfl
  | cons n l ih => simp only [values, h, ih]

theorem none_any (d : List (String × V)) (k : String) (h : k ∉ d.map Prod.fst) : d.any (·.1 == k) = false := by
  rw [List.any_eq_false]
  intro q hq hc
  exact h (List.mem_map.mpr ⟨q, hq, by simpa using hc⟩)

theorem dget_foldl_dset (d l : List (String × V)) (n : String) (hd : (d.map Prod.fst).Nodup) :
    dget (d.foldl (fun l q => dset l q.1 q.2) l) n = ((dget d n) <|> dget l n) := by
  induction d generalizing l with
  | nil => simp [dget_nil]
  | cons q d ih =>
    simp only [List.map_cons, List.nodup_cons] at hd
    rw [List.foldl_cons, ih _ hd.2, dget_dset, dget_cons]
    by_cases hq : q.1 = n
    · subst hq
      have : dget d q.1 = none := (dget_none_iff d q.1).mpr (none_any d q.1 hd.1)
      simp [this]
    · simp [hq]

theorem dget_toSend (known d : List (String × V)) (n : String) (hd : (d.map Prod.fst).Nodup) :
    dget (toSend known d) n = if dget known n = dget d n then none else dget d n := by
  induction d with
  | nil =>
    by_cases h : dget known n = dget ([] : List (String × V)) n
    · rw [if_pos h]; rfl
    · rw [if_neg h]; rfl
  | cons q d ih =>
    simp only [List.map_cons, List.nodup_cons] at hd
    have ih := ih hd.2
    unfold toSend at ih ⊢
    rw [List.filter_cons, dget_cons]
    by_cases hk : dget known q.1 = some q.2
    · simp only [hk, BEq.rfl, Bool.not_true, Bool.false_eq_true, if_false]
      rw [ih]
      by_cases hq : q.1 = n
      · subst hq
        have : dget d q.1 = none := (dget_none_iff d q.1).mpr (none_any d q.1 hd.1)
        simp [this, hk]
      · simp [hq]
    · have : (!(dget known q.1 == some q.2)) = true := by simpa using hk
      rw [if_pos this, dget_cons, ih]
      by_cases hq : q.1 = n
      · subst hq
        simp [hk]
      · simp [hq]

theorem same_get (a b : List (String × V)) (h : same a b = true) (n : String) (x : V) (hx : dget a n = some x) :
    dget b n = some x := by
  unfold same at h
  simp only [Bool.and_eq_true, List.all_eq_true, beq_iff_eq] at h
  exact h.2 (n, x) (dget_mem hx)

end Verif.Tabs
