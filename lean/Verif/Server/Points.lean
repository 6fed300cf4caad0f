import Mathlib.Algebra.Order.Field.Rat
import Mathlib.Tactic.Linarith
import Mathlib.Tactic.FieldSimp
import Mathlib.Tactic.Ring
import Mathlib.Tactic.NormNum
import Mathlib.Data.List.Induction
import Mathlib.Algebra.Order.Field.Basic
import Mathlib.Data.List.Basic
/-!
C95: the points of a plot: `data/js/classes/PointBuffer.js`, with the capacities of
`OverlayManager.js` 112–121 and `PlotDrawer.js` 118–163.

Numbers are rationals; a quotient by zero and what is computed from it (not a number, or infinite) is
`none`. Capacities are at least two (the overlay never goes below 16; a canvas of width 0 or 1 is left
out).
-/
namespace Verif.Points

variable {P : Type}

/-- The state of a `PointBuffer`; a slot is a value and its time, PointBuffer.js 2–17. -/
structure Buf (P : Type) where
  cap : Nat
  head : Nat
  tail : Nat
  elements : Nat
  slots : Nat → Option P

/-- `reset` and new arrays, 11–17 and 40–43. -/
def Buf.fresh (cap : Nat) : Buf P := ⟨cap, 0, 0, 0, fun _ => none⟩

/-- `reset`, 11–17: the arrays stay. -/
def Buf.reset (b : Buf P) : Buf P := { b with head := 0, tail := 0, elements := 0 }

/-- `incrIndex`, 145. -/
def Buf.incr (b : Buf P) (i : Nat) : Nat := (i + 1) % b.cap

/-- One point of `ingest`, 49–63. -/
def Buf.put (b : Buf P) (p : P) : Buf P :=
  let tail := b.incr b.tail
  { b with
    slots := fun i => if i = b.tail then some p else b.slots i
    tail := tail
    elements := min (b.elements + 1) b.cap
    head := if b.head = tail then b.incr b.head else b.head }

/-- `ingest`, 48–69, but for the two times. -/
def Buf.ingest (b : Buf P) (ps : List P) : Buf P := ps.foldl Buf.put b

/-- `newestIdx`, 147–153. -/
def Buf.newest (b : Buf P) : Nat := if b.tail = 0 then b.cap - 1 else b.tail - 1

/-- The indices of the loops `while (idx != newestIdx)` from an index on, such as 84–87, with the
capacity as fuel. -/
def Buf.walk (b : Buf P) : Nat → Nat → List Nat
  | 0, _ => []
  | n + 1, i => if i = b.newest then [] else i :: Buf.walk b n (b.incr i)

/-- The indices such a loop and the statement after it go through: the newest comes last. -/
def Buf.indices (b : Buf P) : List Nat := b.walk b.cap b.head ++ [b.newest]

/-- The points of the plot. -/
def Buf.shown (b : Buf P) : List P := if b.elements = 0 then [] else b.indices.filterMap b.slots

/-- Lines 21–37: the points kept by a change of capacity. -/
def Buf.kept (b : Buf P) (cap : Nat) : List P :=
  let count := min (min b.elements cap) b.cap
  if count = 0 then []
  else
    let start := if count < b.elements then (b.head + (b.elements - count)) % b.cap else b.head
    (List.range (count - 1)).filterMap fun i => b.slots ((start + i) % b.cap)

/-- `updateCapacity`, 19–46. -/
def Buf.resize (b : Buf P) (cap : Nat) : Buf P := (Buf.fresh cap).ingest (b.kept cap)

/-! ### The ring -/

/-- The buffer of a capacity after these points. -/
structure Rep (b : Buf P) (c : Nat) (h : List P) : Prop where
  cap : b.cap = c
  tail : b.tail = h.length % c
  head : b.head = if h.length < c then 0 else (h.length + 1) % c
  elements : b.elements = min h.length c
  slots : ∀ (i : Nat) (p : P), h[i]? = some p → h.length ≤ i + c → b.slots (i % c) = some p

theorem mod_ne {c i n : Nat} (h1 : i < n) (h2 : n < i + c) : i % c ≠ n % c := by
  intro e
  have hc : 0 < c := by omega
  have a := Nat.div_add_mod i c
  have b := Nat.div_add_mod n c
  rw [e] at a
  have hlt : c * (i / c) < c * (n / c) := by omega
  have := Nat.lt_of_mul_lt_mul_left hlt
  have : c * (i / c + 1) ≤ c * (n / c) := Nat.mul_le_mul_left c this
  rw [Nat.mul_add] at this
  omega

theorem mod_succ {c : Nat} (n : Nat) : (n % c + 1) % c = (n + 1) % c := by
  rw [Nat.add_mod, Nat.mod_mod, ← Nat.add_mod]

theorem rep_fresh (c : Nat) (hc : 2 ≤ c) : Rep (Buf.fresh c : Buf P) c [] :=
  ⟨rfl, by simp [Buf.fresh], by simp [Buf.fresh]; omega, by simp [Buf.fresh], by intro i p h; simp at h⟩

theorem rep_reset {b : Buf P} {c : Nat} (hc : 2 ≤ c) {h : List P} (r : Rep b c h) : Rep b.reset c [] :=
  ⟨r.cap, by simp [Buf.reset], by simp [Buf.reset]; omega, by simp [Buf.reset], by intro i p h; simp at h⟩

theorem rep_put {b : Buf P} {c : Nat} (_ : 2 ≤ c) {h : List P} (r : Rep b c h) (p : P) :
    Rep (b.put p) c (h ++ [p]) := by
  have hl : (h ++ [p]).length = h.length + 1 := by simp
  have ht : b.incr b.tail = (h.length + 1) % c := by
    unfold Buf.incr
    rw [r.cap, r.tail, mod_succ]
  refine ⟨r.cap, ?_, ?_, ?_, ?_⟩
  · rw [hl]; exact ht
  · rw [hl]
    show (if b.head = b.incr b.tail then b.incr b.head else b.head) = _
    rw [ht, r.head]
    unfold Buf.incr
    rw [r.cap]
    by_cases h1 : h.length < c
    · rw [if_pos h1]
      by_cases h2 : h.length + 1 < c
      · rw [if_pos h2, Nat.mod_eq_of_lt h2, if_neg (by omega)]
      · have e : h.length + 1 = c := by omega
        rw [if_neg h2, e, Nat.mod_self, if_pos rfl]
        simp
    · rw [if_neg h1, if_pos rfl, if_neg (by omega), mod_succ]
  · rw [hl]
    show min (b.elements + 1) b.cap = _
    rw [r.elements, r.cap]
    omega
  · intro i q hi hlen
    rw [hl] at hlen
    show (if i % c = b.tail then some p else b.slots (i % c)) = some q
    rw [r.tail]
    by_cases e : i = h.length
    · subst e
      rw [if_pos rfl]
      simpa using hi
    · have hlt : i < h.length := by
        have := (List.getElem?_eq_some_iff.mp hi).1
        rw [hl] at this
        omega
      rw [if_neg (mod_ne hlt (by omega))]
      rw [List.getElem?_append_left hlt] at hi
      exact r.slots i q hi (by omega)

theorem rep_ingest {c : Nat} (hc : 2 ≤ c) (ps : List P) : ∀ {b : Buf P} {h : List P}, Rep b c h →
    Rep (b.ingest ps) c (h ++ ps) := by
  induction ps with
  | nil => intro b h r; simpa [Buf.ingest] using r
  | cons p ps ih =>
    intro b h r
    have := ih (rep_put hc r p)
    simpa [Buf.ingest] using this

theorem rep_newest {b : Buf P} {c : Nat} (hc : 2 ≤ c) {h : List P} (r : Rep b c h) (hh : h ≠ []) :
    b.newest = (h.length - 1) % c := by
  have hp : 0 < h.length := List.length_pos_iff.mpr hh
  unfold Buf.newest
  rw [r.tail, r.cap]
  obtain ⟨m, hm⟩ : ∃ m, h.length = m + 1 := ⟨h.length - 1, by omega⟩
  rw [hm]
  show (if (m + 1) % c = 0 then c - 1 else (m + 1) % c - 1) = m % c
  have hlt := Nat.mod_lt m (show 0 < c by omega)
  rw [← mod_succ m]
  by_cases e : m % c + 1 = c
  · rw [e, Nat.mod_self, if_pos rfl]; omega
  · rw [Nat.mod_eq_of_lt (by omega), if_neg (by omega)]; omega

/-- The loop from an index to the newest goes through every index between. -/
theorem walk_eq {b : Buf P} {c : Nat} (hb : b.cap = c) (m : Nat) (hn : b.newest = m % c) :
    ∀ (d fuel a : Nat), a + d = m → d < c → d < fuel →
      b.walk fuel (a % c) = (List.range d).map fun i => (a + i) % c := by
  intro d
  induction d with
  | zero =>
    intro fuel a h1 _ h3
    cases fuel with
    | zero => omega
    | succ fuel =>
      rw [Buf.walk, hn, if_pos (by rw [← h1]; rfl)]
      rfl
  | succ d ih =>
    intro fuel a h1 h2 h3
    cases fuel with
    | zero => omega
    | succ fuel =>
      rw [Buf.walk, hn, if_neg (mod_ne (by omega) (by omega))]
      have e : b.incr (a % c) = (a + 1) % c := by
        unfold Buf.incr
        rw [hb, mod_succ]
      rw [e, ih fuel (a + 1) (by omega) (by omega) (by omega), List.range_succ_eq_map, List.map_cons, List.map_map]
      congr 1
      apply List.map_congr_left
      intro i _
      show (a + 1 + i) % c = (a + (i + 1)) % c
      congr 1
      omega

theorem filterMap_slots {b : Buf P} {c : Nat} {h : List P} (r : Rep b c h) (a d : Nat) (had : a + d ≤ h.length)
    (hac : h.length ≤ a + c) :
    (List.range d).filterMap (fun i => b.slots ((a + i) % c)) = (h.drop a).take d := by
  induction d with
  | zero => simp
  | succ d ih =>
    have hlt : a + d < h.length := by omega
    have hs := r.slots (a + d) h[a + d] (List.getElem?_eq_some_iff.mpr ⟨hlt, rfl⟩) (by omega)
    rw [List.range_succ, List.filterMap_append, ih (by omega), List.take_add_one]
    congr 1
    rw [List.getElem?_drop, List.getElem?_eq_getElem hlt]
    simp [hs]

/-- The last points of a list. -/
def lastN (n : Nat) (l : List P) : List P := l.drop (l.length - n)

/-- The plot shows the last points, one fewer than the capacity. -/
theorem rep_shown {b : Buf P} {c : Nat} (hc : 2 ≤ c) {h : List P} (r : Rep b c h) :
    b.shown = lastN (c - 1) h := by
  unfold Buf.shown lastN
  by_cases hh : h = []
  · subst hh
    rw [r.elements]
    simp
  · have hp : 0 < h.length := List.length_pos_iff.mpr hh
    rw [if_neg (by rw [r.elements]; omega)]
    have hn := rep_newest hc r hh
    unfold Buf.indices
    rw [hn, r.cap]
    have key : ∀ a, b.head = a % c → a < h.length → h.length - 1 - a < c → h.length ≤ a + c →
        (b.walk c b.head ++ [(h.length - 1) % c]).filterMap b.slots = h.drop a := by
      intro a ha h1 h2 h3
      rw [ha, walk_eq r.cap (h.length - 1) hn (h.length - 1 - a) c a (by omega) h2 h2]
      have e : (List.range (h.length - 1 - a)).map (fun i => (a + i) % c) ++ [(h.length - 1) % c]
          = (List.range (h.length - a)).map fun i => (a + i) % c := by
        have : h.length - a = (h.length - 1 - a) + 1 := by omega
        rw [this, List.range_succ, List.map_append]
        congr 2
        show _ = (a + (h.length - 1 - a)) % c
        congr 1
        omega
      rw [e, List.filterMap_map]
      have := filterMap_slots r a (h.length - a) (by omega) h3
      have e2 : (fun i => b.slots ((a + i) % c)) = b.slots ∘ fun i => (a + i) % c := rfl
      rw [← e2, this]
      exact List.take_of_length_le (by simp)
    by_cases h1 : h.length < c
    · have := key 0 (by rw [r.head, if_pos h1]; simp) hp (by omega) (by omega)
      rw [this]
      congr 1
      omega
    · have := key (h.length + 1 - c) (by
        rw [r.head, if_neg h1]
        have e : h.length + 1 = (h.length + 1 - c) + c := by omega
        rw [e, Nat.add_mod_right]
        congr 1
        omega) (by omega) (by omega) (by omega)
      rw [this]
      congr 1
      omega

/-- What a change of capacity keeps. -/
theorem rep_kept {b : Buf P} {c : Nat} (hc : 2 ≤ c) {h : List P} (r : Rep b c h) (k : Nat) (hk : 2 ≤ k) :
    b.kept k = if h.length < c then lastN (min h.length k - 1) h.dropLast else lastN (min c k - 1) h := by
  unfold Buf.kept lastN
  simp only [r.elements, r.cap]
  by_cases hh : h = []
  · subst hh; simp
  · have hp : 0 < h.length := List.length_pos_iff.mpr hh
    rw [if_neg (by omega)]
    by_cases h1 : h.length < c
    · rw [if_pos h1]
      have e1 : min (min (min h.length c) k) c = min h.length k := by omega
      have e2 : min h.length c = h.length := by omega
      rw [e1, e2]
      have hst : (if min h.length k < h.length then (b.head + (h.length - min h.length k)) % c else b.head)
          = (h.length - min h.length k) % c := by
        rw [r.head, if_pos h1]
        by_cases h2 : min h.length k < h.length
        · rw [if_pos h2]; simp
        · rw [if_neg h2]
          have : h.length - min h.length k = 0 := by omega
          rw [this]; simp
      rw [hst]
      have e3 : (fun i => b.slots (((h.length - min h.length k) % c + i) % c))
          = fun i => b.slots (((h.length - min h.length k) + i) % c) := by
        funext i
        rw [Nat.add_mod, Nat.mod_mod, ← Nat.add_mod]
      rw [e3, filterMap_slots r _ _ (by omega) (by omega)]
      rw [List.length_dropLast]
      have e4 : h.length - 1 - (min h.length k - 1) = h.length - min h.length k := by omega
      rw [e4, List.dropLast_eq_take, List.drop_take]
      congr 1
      omega
    · rw [if_neg h1]
      have e1 : min (min (min h.length c) k) c = min c k := by omega
      have e2 : min h.length c = c := by omega
      rw [e1, e2]
      have hst : (if min c k < c then (b.head + (c - min c k)) % c else b.head)
          = (h.length + 1 - min c k) % c := by
        rw [r.head, if_neg h1]
        by_cases h2 : min c k < c
        · rw [if_pos h2, Nat.add_mod, Nat.mod_mod, ← Nat.add_mod]
          have e : h.length + 1 + (c - min c k) = (h.length + 1 - min c k) + c := by omega
          rw [e, Nat.add_mod_right]
        · rw [if_neg h2]
          have e : min c k = c := by omega
          rw [e]
          have e' : h.length + 1 = (h.length + 1 - c) + c := by omega
          rw [e', Nat.add_mod_right]
          congr 1
          omega
      rw [hst]
      have e3 : (fun i => b.slots (((h.length + 1 - min c k) % c + i) % c))
          = fun i => b.slots (((h.length + 1 - min c k) + i) % c) := by
        funext i
        rw [Nat.add_mod, Nat.mod_mod, ← Nat.add_mod]
      rw [e3, filterMap_slots r _ _ (by omega) (by omega)]
      have e4 : h.length - (min c k - 1) = h.length + 1 - min c k := by omega
      rw [e4]
      exact List.take_of_length_le (by simp; omega)

theorem rep_resize {b : Buf P} (k : Nat) (hk : 2 ≤ k) : Rep (b.resize k) k (b.kept k) := by
  have := rep_ingest hk (b.kept k) (rep_fresh (P := P) k hk)
  simpa [Buf.resize] using this

/-! ### Runs -/

/-- What happens to a buffer. -/
inductive Op (P : Type) where
  | ingest (ps : List P)
  | clear
  | resize (cap : Nat)

def Buf.step (b : Buf P) : Op P → Buf P
  | .ingest ps => b.ingest ps
  | .clear => b.reset
  | .resize cap => b.resize cap

def Buf.run (b : Buf P) (ops : List (Op P)) : Buf P := ops.foldl Buf.step b

/-- Every change of capacity is to at least two. -/
def Sane (ops : List (Op P)) : Prop := ∀ k, Op.resize k ∈ ops → 2 ≤ k

/-- The points ingested since the last clearing. -/
def since : List (Op P) → List P → List P
  | [], h => h
  | .ingest ps :: ops, h => since ops (h ++ ps)
  | .clear :: ops, _ => since ops []
  | .resize _ :: ops, h => since ops h

theorem run_rep (ops : List (Op P)) : ∀ (b : Buf P) (c : Nat) (h g : List P), 2 ≤ c → Sane ops → Rep b c h →
    h.Sublist g → ∃ c' h', 2 ≤ c' ∧ Rep (b.run ops) c' h' ∧ h'.Sublist (since ops g) := by
  induction ops with
  | nil => intro b c h g hc _ r hs; exact ⟨c, h, hc, r, hs⟩
  | cons o ops ih =>
    intro b c h g hc hsane r hs
    have hsane' : Sane ops := fun k hk => hsane k (List.mem_cons_of_mem _ hk)
    cases o with
    | ingest ps =>
      exact ih (b.ingest ps) c (h ++ ps) (g ++ ps) hc hsane' (rep_ingest hc ps r)
        (List.Sublist.append hs (List.Sublist.refl ps))
    | clear => exact ih b.reset c [] [] hc hsane' (rep_reset hc r) (List.Sublist.refl _)
    | resize k =>
      have hk : 2 ≤ k := hsane k (List.mem_cons_self ..)
      refine ih (b.resize k) k (b.kept k) g hk hsane' (rep_resize k hk) ?_
      rw [rep_kept hc r k hk]
      split
      · exact ((List.drop_sublist _ _).trans (List.dropLast_sublist _)).trans hs
      · exact (List.drop_sublist _ _).trans hs

/-- C95: whatever is ingested, cleared and resized, the plot shows points that were ingested since the
last clearing, in their order and none twice. -/
theorem C95_order (c : Nat) (hc : 2 ≤ c) (ops : List (Op P)) (hs : Sane ops) :
    ((Buf.fresh c : Buf P).run ops).shown.Sublist (since ops []) := by
  obtain ⟨c', h', hc', r, hsub⟩ := run_rep ops (Buf.fresh c : Buf P) c [] [] hc hs (rep_fresh c hc) (List.Sublist.refl _)
  rw [rep_shown hc' r]
  exact (List.drop_sublist _ _).trans hsub

/-- C95: after a change of capacity or a clearing, and without any since, the plot shows the last
points, one fewer than the capacity: those kept by the change and those ingested after it. -/
theorem C95_last (b : Buf P) (k : Nat) (hk : 2 ≤ k) (pss : List (List P)) :
    ((b.resize k).run (pss.map .ingest)).shown =
      (b.kept k ++ pss.flatten).drop ((b.kept k ++ pss.flatten).length - (k - 1)) := by
  have : ∀ (pss : List (List P)) (b : Buf P) (h : List P), Rep b k h →
      Rep (b.run (pss.map .ingest)) k (h ++ pss.flatten) := by
    intro pss
    induction pss with
    | nil => intro b h r; simpa [Buf.run] using r
    | cons ps pss ih =>
      intro b h r
      have := ih (b.ingest ps) (h ++ ps) (rep_ingest hk ps r)
      simpa [Buf.run, Buf.step] using this
  exact rep_shown hk (this pss _ _ (rep_resize k hk))

/-- C95: of the points of a new buffer, the last ones are shown, one fewer than the capacity. -/
theorem C95_ring (c : Nat) (hc : 2 ≤ c) (ps : List P) :
    ((Buf.fresh c : Buf P).ingest ps).shown = ps.drop (ps.length - (c - 1)) := by
  have := rep_shown hc (rep_ingest hc ps (rep_fresh (P := P) c hc))
  simpa [lastN] using this

/-- C95: if the buffer is full, a change of capacity keeps the last of the shown points, as many
as the new capacity allows. -/
theorem C95_resize_partial (c : Nat) (hc : 2 ≤ c) (ps : List P) (hfull : c ≤ ps.length) (k : Nat) (hk : 2 ≤ k) :
    (((Buf.fresh c : Buf P).ingest ps).resize k).shown = ps.drop (ps.length - (min c k - 1)) := by
  have r := rep_ingest hc ps (rep_fresh (P := P) c hc)
  rw [List.nil_append] at r
  rw [rep_shown hk (rep_resize k hk), rep_kept hc r k hk, if_neg (by omega)]
  unfold lastN
  rw [List.length_drop, List.drop_drop]
  congr 1
  omega

/-- C95 fails if the buffer is not full: every change of capacity, also to a greater one, loses the
newest point. -/
theorem C95_resize_fails (c : Nat) (hc : 2 ≤ c) (ps : List P) (p : P) (hfull : ps.length + 1 < c) (k : Nat)
    (hk : 2 ≤ k) :
    (((Buf.fresh c : Buf P).ingest (ps ++ [p])).resize k).shown = ps.drop (ps.length - (min (ps.length + 1) k - 1)) := by
  have r := rep_ingest hc (ps ++ [p]) (rep_fresh (P := P) c hc)
  rw [List.nil_append] at r
  rw [rep_shown hk (rep_resize k hk), rep_kept hc r k hk, if_pos (by simpa using hfull)]
  unfold lastN
  rw [List.dropLast_concat, List.length_drop, List.drop_drop]
  congr 1
  simp only [List.length_append, List.length_singleton]
  omega

/-- C95 fails over repeated changes: each costs a point, so that a buffer that is not full is emptied by
as many changes as it has points. -/
theorem C95_wear_fails (c : Nat) (hc : 2 ≤ c) (n : Nat) : ∀ (ps : List P), ps.length < c → ps.length ≤ n →
    ((Buf.fresh c : Buf P).ingest ps |>.run (List.replicate n (.resize c))).shown = [] := by
  have key : ∀ (n : Nat) (b : Buf P) (h : List P), Rep b c h → h.length < c → h.length ≤ n →
      (b.run (List.replicate n (.resize c))).shown = [] := by
    intro n
    induction n with
    | zero =>
      intro b h r _ h0
      have : h = [] := List.length_eq_zero_iff.mp (by omega)
      subst this
      show b.shown = []
      rw [rep_shown hc r]; simp [lastN]
    | succ n ih =>
      intro b h r h1 h2
      rw [List.replicate_succ]
      refine ih (b.resize c) (b.kept c) (rep_resize c hc) ?_ ?_
      · rw [rep_kept hc r c hc, if_pos h1]
        unfold lastN
        simp only [List.length_drop, List.length_dropLast]
        omega
      · rw [rep_kept hc r c hc, if_pos h1]
        unfold lastN
        simp only [List.length_drop, List.length_dropLast]
        omega
  intro ps h1 h2
  have r := rep_ingest hc ps (rep_fresh (P := P) c hc)
  rw [List.nil_append] at r
  exact key n _ ps r h1 h2

/-! ### Drawing -/

/-- A point: its value and its time. -/
structure Pt where
  val : Rat
  time : Rat
  deriving DecidableEq

/-- `2 / d`, `none` if it is infinite. -/
def slope (d : Rat) : Option Rat := if d = 0 then none else some (2 / d)

/-- `((x - lo) * slope) - 1`: with an infinite slope no number. -/
def place (lo : Rat) (s : Option Rat) (x : Rat) : Option Rat := s.map fun s => (x - lo) * s - 1

/-- `normalizeTimestamps`, 71–103, for the shown points: an infinite slope is greater than 0. -/
def times (lo hi : Rat) (ps : List Pt) : List (Option Rat) :=
  if hi < lo then ps.dropLast.map fun _ => some lo
  else ps.map fun p => place lo (slope (hi - lo)) p.time

/-- First pass of `normalizeValues`, 106–129: the loop does not reach the newest point. -/
def bounds (ps : List Pt) : Option (Rat × Rat) :=
  ps.dropLast.foldl (fun b p =>
    match b with
    | none => some (p.val, p.val)
    | some (lo, hi) => some (if p.val < lo then p.val else lo, if hi < p.val then p.val else hi)) none

/-- Second pass, 131–142. With no bounds (`null` counts as 0, so that the difference is 0) the slope is
infinite. -/
def values (ps : List Pt) : List (Option Rat) :=
  match bounds ps with
  | none => ps.map fun _ => none
  | some (lo, hi) => ps.map fun p => place lo (slope (hi - lo)) p.val

/-- `draw`, 155–192, on a line of some number of points: `none` if it is left as it is. -/
def draw (b : Buf Pt) (lo hi : Rat) (numPoints : Nat) : Option (List (Option Rat × Option Rat)) :=
  if b.elements < 2 then none
  else
    let xs := times lo hi b.shown
    let ys := values b.shown
    let at' := fun i => ((xs[i]?).join, (ys[i]?).join)
    let n := min (b.shown.length - 1) numPoints
    some ((List.range n).map at' ++ (List.replicate (numPoints - n) (at' n)))

/-- C95: each point of the line is a shown point, the newest one repeated to its end; times are mapped
linearly, and the bounds to the borders. -/
theorem C95_drawn (b : Buf Pt) (lo hi : Rat) (hlt : lo < hi) (numPoints : Nat) (he : 2 ≤ b.elements)
    (hs : b.shown ≠ []) :
    ∃ line, draw b lo hi numPoints = some line ∧ line.length = numPoints ∧
      ∀ i, i < numPoints → ∀ p, b.shown[min i (b.shown.length - 1)]? = some p →
        (line[i]?).map Prod.fst = some (some ((p.time - lo) * (2 / (hi - lo)) - 1)) := by
  have hp : 0 < b.shown.length := List.length_pos_iff.mpr hs
  unfold draw
  rw [if_neg (by omega)]
  refine ⟨_, rfl, ?_, ?_⟩
  · simp
  · intro i hi' p hp'
    have hx : ∀ (j : Nat) (p : Pt), b.shown[j]? = some p → ((times lo hi b.shown)[j]?).join = some ((p.time - lo) * (2 / (hi - lo)) - 1) := by
      intro j p hj
      unfold times
      rw [if_neg (by linarith), List.getElem?_map, hj]
      have : ¬ hi - lo = 0 := by intro h; linarith
      simp [place, slope, this]
    by_cases h1 : i < min (b.shown.length - 1) numPoints
    · rw [List.getElem?_append_left (by simpa using h1), List.getElem?_map, List.getElem?_range h1]
      simp only [Option.map_some]
      have e : min i (b.shown.length - 1) = i := by omega
      rw [e] at hp'
      rw [hx i p hp']
    · have hn : min (b.shown.length - 1) numPoints = b.shown.length - 1 := by omega
      rw [List.getElem?_append_right (by simp; omega)]
      rw [List.getElem?_replicate]
      simp only [List.length_map, List.length_range]
      rw [if_pos (by omega), hn]
      simp only [Option.map_some]
      have e : min i (b.shown.length - 1) = b.shown.length - 1 := by omega
      rw [e] at hp'
      rw [hx _ p hp']

/-- C95: and its height is that of the same shown point. -/
theorem C95_drawn_value (b : Buf Pt) (lo hi : Rat) (numPoints : Nat) (he : 2 ≤ b.elements) :
    ∃ line, draw b lo hi numPoints = some line ∧ ∀ i, i < numPoints →
      (line[i]?).map Prod.snd = some ((values b.shown)[min i (b.shown.length - 1)]?).join := by
  unfold draw
  rw [if_neg (by omega)]
  refine ⟨_, rfl, ?_⟩
  intro i hi'
  by_cases h1 : i < min (b.shown.length - 1) numPoints
  · rw [List.getElem?_append_left (by simpa using h1), List.getElem?_map, List.getElem?_range h1]
    have e : min i (b.shown.length - 1) = i := by omega
    simp only [Option.map_some, e]
  · have hn : min (b.shown.length - 1) numPoints = b.shown.length - 1 := by omega
    rw [List.getElem?_append_right (by simp; omega), List.getElem?_replicate]
    simp only [List.length_map, List.length_range]
    have e : min i (b.shown.length - 1) = b.shown.length - 1 := by omega
    rw [if_pos (by omega), hn, e]
    rfl

/-- C95: a time within the bounds is within the plot, the first bound at its left border and the second at
its right border. -/
theorem C95_time (lo hi t : Rat) (hlt : lo < hi) :
    (lo ≤ t → t ≤ hi → -1 ≤ (t - lo) * (2 / (hi - lo)) - 1 ∧ (t - lo) * (2 / (hi - lo)) - 1 ≤ 1) ∧
    (lo - lo) * (2 / (hi - lo)) - 1 = -1 ∧ (hi - lo) * (2 / (hi - lo)) - 1 = 1 := by
  have hd : 0 < hi - lo := by linarith
  have hne : hi - lo ≠ 0 := ne_of_gt hd
  have hs : 0 < 2 / (hi - lo) := div_pos (by norm_num) hd
  have h1 : (hi - lo) * (2 / (hi - lo)) = 2 := by field_simp
  refine ⟨fun a b => ⟨?_, ?_⟩, by ring, by rw [h1]; norm_num⟩
  · have := mul_nonneg (show 0 ≤ t - lo by linarith) (le_of_lt hs)
    linarith
  · have : (t - lo) * (2 / (hi - lo)) ≤ (hi - lo) * (2 / (hi - lo)) :=
      mul_le_mul_of_nonneg_right (by linarith) (le_of_lt hs)
    linarith

/-- What the first pass finds: the extremes of all points but the newest. -/
theorem bounds_spec (ps : List Pt) (lo hi : Rat) (h : bounds ps = some (lo, hi)) :
    (∃ p ∈ ps.dropLast, p.val = lo) ∧ (∃ p ∈ ps.dropLast, p.val = hi) ∧
      ∀ p ∈ ps.dropLast, lo ≤ p.val ∧ p.val ≤ hi := by
  unfold bounds at h
  generalize ps.dropLast = l at h
  clear ps
  induction l using List.reverseRecOn generalizing lo hi with
  | nil => cases h
  | append_singleton l q ih =>
    rw [List.foldl_append, List.foldl_cons, List.foldl_nil] at h
    cases hf : l.foldl (fun b p =>
      match b with
      | none => some (p.val, p.val)
      | some (lo, hi) => some (if p.val < lo then p.val else lo, if hi < p.val then p.val else hi))
      (none : Option (Rat × Rat)) with
    | none =>
      rw [hf] at h
      cases h
      have hl : l = [] := by
        cases l using List.reverseRecOn with
        | nil => rfl
        | append_singleton l x =>
          exfalso
          rw [List.foldl_append, List.foldl_cons, List.foldl_nil] at hf
          split at hf <;> cases hf
      subst hl
      refine ⟨⟨q, by simp, rfl⟩, ⟨q, by simp, rfl⟩, ?_⟩
      intro p hp
      simp only [List.nil_append, List.mem_singleton] at hp
      subst hp
      exact ⟨le_refl _, le_refl _⟩
    | some b =>
      obtain ⟨lo', hi'⟩ := b
      rw [hf] at h
      obtain ⟨⟨p1, m1, e1⟩, ⟨p2, m2, e2⟩, hall⟩ := ih lo' hi' hf
      simp only [Option.some.injEq, Prod.mk.injEq] at h
      obtain ⟨h1, h2⟩ := h
      refine ⟨?_, ?_, ?_⟩
      · by_cases hq : q.val < lo'
        · rw [if_pos hq] at h1; exact ⟨q, by simp, h1⟩
        · rw [if_neg hq] at h1; exact ⟨p1, by simp [m1], e1.trans h1⟩
      · by_cases hq : hi' < q.val
        · rw [if_pos hq] at h2; exact ⟨q, by simp, h2⟩
        · rw [if_neg hq] at h2; exact ⟨p2, by simp [m2], e2.trans h2⟩
      · intro p hp
        rcases List.mem_append.mp hp with hp | hp
        · have := hall p hp
          constructor
          · rw [← h1]; split <;> linarith
          · rw [← h2]; split <;> linarith
        · rw [List.mem_singleton] at hp
          subst hp
          constructor
          · rw [← h1]; split <;> linarith
          · rw [← h2]; split <;> linarith

theorem bounds_none (ps : List Pt) (h : bounds ps = none) : ps.dropLast = [] := by
  unfold bounds at h
  generalize ps.dropLast = l at h
  cases l using List.reverseRecOn with
  | nil => rfl
  | append_singleton l x =>
    exfalso
    rw [List.foldl_append, List.foldl_cons, List.foldl_nil] at h
    split at h <;> cases h

/-- C95: if the earlier points differ and the newest is not beyond them, every value is within the
plot, the least at its lower and the greatest at its upper border. -/
theorem C95_value_partial (ps : List Pt) (q a b : Pt) (ha : a ∈ ps) (hb : b ∈ ps) (hab : a.val < b.val)
    (hmin : ∀ p ∈ ps, a.val ≤ p.val) (hmax : ∀ p ∈ ps, p.val ≤ b.val) (hq : a.val ≤ q.val ∧ q.val ≤ b.val) :
    values (ps ++ [q]) = (ps ++ [q]).map (fun p => some ((p.val - a.val) * (2 / (b.val - a.val)) - 1)) ∧
    ∀ p ∈ ps ++ [q], -1 ≤ (p.val - a.val) * (2 / (b.val - a.val)) - 1 ∧
      (p.val - a.val) * (2 / (b.val - a.val)) - 1 ≤ 1 := by
  constructor
  · unfold values
    cases hbd : bounds (ps ++ [q]) with
    | none =>
      have := bounds_none _ hbd
      rw [List.dropLast_concat] at this
      subst this
      cases ha
    | some x =>
      obtain ⟨lo, hi⟩ := x
      obtain ⟨⟨p1, m1, e1⟩, ⟨p2, m2, e2⟩, hall⟩ := bounds_spec _ _ _ hbd
      rw [List.dropLast_concat] at m1 m2 hall
      have el : lo = a.val := le_antisymm (hall a ha).1 (e1 ▸ hmin p1 m1)
      have eh : hi = b.val := le_antisymm (e2 ▸ hmax p2 m2) (hall b hb).2
      have hne : ¬ b.val - a.val = 0 := by intro h; linarith
      simp [el, eh, place, slope, hne]
  · intro p hp
    have : a.val ≤ p.val ∧ p.val ≤ b.val := by
      rcases List.mem_append.mp hp with h | h
      · exact ⟨hmin p h, hmax p h⟩
      · rw [List.mem_singleton] at h
        subst h
        exact hq
    exact (C95_time a.val b.val p.val hab).1 this.1 this.2

/-- C95 fails for a newest value beyond the earlier ones: it is drawn outside the plot. -/
theorem C95_spike_fails (ps : List Pt) (q a b : Pt) (ha : a ∈ ps) (hb : b ∈ ps) (hab : a.val < b.val)
    (hmin : ∀ p ∈ ps, a.val ≤ p.val) (hmax : ∀ p ∈ ps, p.val ≤ b.val) (hq : b.val < q.val) :
    ∃ y, (values (ps ++ [q])).getLast? = some (some y) ∧ 1 < y := by
  unfold values
  cases hbd : bounds (ps ++ [q]) with
  | none =>
    have := bounds_none _ hbd
    rw [List.dropLast_concat] at this
    subst this
    cases ha
  | some x =>
    obtain ⟨lo, hi⟩ := x
    obtain ⟨⟨p1, m1, e1⟩, ⟨p2, m2, e2⟩, hall⟩ := bounds_spec _ _ _ hbd
    rw [List.dropLast_concat] at m1 m2 hall
    have el : lo = a.val := le_antisymm (hall a ha).1 (e1 ▸ hmin p1 m1)
    have eh : hi = b.val := le_antisymm (e2 ▸ hmax p2 m2) (hall b hb).2
    have hne : ¬ b.val - a.val = 0 := by intro h; linarith
    refine ⟨(q.val - a.val) * (2 / (b.val - a.val)) - 1, ?_, ?_⟩
    · simp [el, eh, place, slope, hne]
    · have hd : 0 < b.val - a.val := by linarith
      have hs : 0 < 2 / (b.val - a.val) := div_pos (by norm_num) hd
      have h1 : (b.val - a.val) * (2 / (b.val - a.val)) = 2 := by field_simp
      have : (b.val - a.val) * (2 / (b.val - a.val)) < (q.val - a.val) * (2 / (b.val - a.val)) :=
        mul_lt_mul_of_pos_right (by linarith) hs
      linarith

/-- C95 fails for a value that did not change: nothing of the line can be drawn. -/
theorem C95_flat_fails (ps : List Pt) (q : Pt) (v : Rat) (hv : ∀ p ∈ ps, p.val = v) :
    ∀ y ∈ values (ps ++ [q]), y = none := by
  unfold values
  cases hbd : bounds (ps ++ [q]) with
  | none =>
    intro y hy
    obtain ⟨p, -, rfl⟩ := List.mem_map.mp hy
    rfl
  | some x =>
    obtain ⟨lo, hi⟩ := x
    obtain ⟨⟨p1, m1, e1⟩, ⟨p2, m2, e2⟩, -⟩ := bounds_spec _ _ _ hbd
    rw [List.dropLast_concat] at m1 m2
    have : hi - lo = 0 := by rw [← e1, ← e2, hv p1 m1, hv p2 m2]; ring
    intro y hy
    obtain ⟨p, -, rfl⟩ := List.mem_map.mp hy
    simp [place, slope, this]

/-- C95 fails for a line shorter than the points (a line made before its buffer has the width of the
canvas): only the oldest points are drawn. -/
theorem C95_short_fails (b : Buf Pt) (lo hi : Rat) (hlt : lo < hi) (numPoints : Nat) (he : 2 ≤ b.elements)
    (hs : numPoints < b.shown.length) :
    ∃ line, draw b lo hi numPoints = some line ∧
      line.map Prod.fst = (b.shown.take numPoints).map fun p => some ((p.time - lo) * (2 / (hi - lo)) - 1) := by
  unfold draw
  rw [if_neg (by omega)]
  refine ⟨_, rfl, ?_⟩
  have hn : min (b.shown.length - 1) numPoints = numPoints := by omega
  rw [hn, Nat.sub_self, List.replicate_zero, List.append_nil]
  apply List.ext_getElem?
  intro i
  rw [List.getElem?_map, List.getElem?_map, List.getElem?_map]
  by_cases h1 : i < numPoints
  · rw [List.getElem?_range h1, List.getElem?_take_of_lt h1]
    have h2 : i < b.shown.length := by omega
    rw [List.getElem?_eq_getElem h2]
    simp only [Option.map_some]
    unfold times
    rw [if_neg (by linarith), List.getElem?_map, List.getElem?_eq_getElem h2]
    have : ¬ hi - lo = 0 := by intro h; linarith
    simp [place, slope, this]
  · rw [List.getElem?_eq_none (by simpa using h1), List.getElem?_eq_none (by simp; omega)]
    rfl

/-! ### A concrete buffer -/

theorem C95_cases :
    ((Buf.fresh 4 : Buf Nat).ingest [1, 2, 3, 4, 5, 6]).shown = [4, 5, 6]
    ∧ (((Buf.fresh 4 : Buf Nat).ingest [1, 2, 3, 4, 5, 6]).resize 3).shown = [5, 6]
    ∧ (((Buf.fresh 8 : Buf Nat).ingest [1, 2, 3]).resize 16).shown = [1, 2]
    ∧ ((Buf.fresh 4 : Buf Nat).run [.ingest [1, 2], .clear, .ingest [3], .resize 5, .ingest [4, 5]]).shown = [4, 5] := by
  decide +kernel

theorem C95_cases_draw :
    draw ((Buf.fresh 4).ingest [⟨0, 0⟩, ⟨4, 1⟩, ⟨2, 2⟩]) 0 2 4 =
      some [(some (-1), some (-1)), (some 0, some 1), (some 1, some 0), (some 1, some 0)] := by
  decide +kernel

end Verif.Points
