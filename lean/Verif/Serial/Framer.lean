import Verif.Serial.Prefixed
/-! C26, C27: framing of serializables and struct datagrams. -/
namespace Verif.Serial

open Verif.Wire

/-- `SerializableFramer`: `inst` is the framed serializable. -/
structure Framer where
  inst : Nat
  length : Nat
  elements : Nat
  raw : Bytes
  deriving DecidableEq

/-- `reset`, framer.py 51–55. -/
def Framer.reset (f : Framer) : Framer := { f with elements := 0, raw := [] }

/-- `set_mtu`, framer.py 27–49. A failed first assertion changes nothing, a failed second one
leaves the new length. -/
def Framer.setMtu (h : Heap) (f : Framer) (mtu overhead : Int) : Framer × Except PyErr Nat :=
  match h.length f.inst with
  | .error e => (f, .error e)
  | .ok n =>
    if 0 < n then
      let len := Int.fdiv (mtu - overhead) n
      if 0 < len then (Framer.reset { f with length := len.toNat }, .ok len.toNat)
      else ({ f with length := len.toNat }, .error .assertion)
    else (f, .error .assertion)

/-- `__init__`, framer.py 21–25. -/
def Framer.new (h : Heap) (i : Nat) (mtu : Int) : Framer × Except PyErr Nat :=
  Framer.setMtu h ⟨i, 0, 0, []⟩ mtu 0

/-- `capture`, framer.py 57–73. -/
def Framer.capture (h : Heap) (f : Framer) (sample flush : Bool) : Framer × Except PyErr (Option Bytes) :=
  let s : Except PyErr Framer :=
    if sample then
      match h.bytes f.inst with
      | .error e => .error e
      | .ok b => .ok { f with raw := f.raw ++ b, elements := f.elements + 1 }
    else .ok f
  match s with
  | .error e => (f, .error e)
  | .ok f =>
    if f.raw ≠ [] ∧ (flush = true ∨ f.elements = f.length) then (f.reset, .ok (some f.raw))
    else (f, .ok none)

/-! ### C26 -/

/-- A history of captures: the state of the objects at each call, and the arguments. -/
def Framer.run (f : Framer) : List (Heap × Bool × Bool) → Framer × List (Except PyErr (Option Bytes))
  | [] => (f, [])
  | (h, s, fl) :: rest =>
    let (f, r) := f.capture h s fl
    let (f, rs) := f.run rest
    (f, r :: rs)

/-- The encodings sampled by a history. -/
def sampled (i : Nat) : List (Heap × Bool × Bool) → List Bytes
  | [] => []
  | (h, true, _) :: rest =>
    match h.bytes i with
    | .ok b => b :: sampled i rest
    | .error _ => sampled i rest
  | (_, false, _) :: rest => sampled i rest

/-- The frames among the results of the calls. -/
def frames : List (Except PyErr (Option Bytes)) → List Bytes
  | [] => []
  | .ok (some b) :: rest => b :: frames rest
  | _ :: rest => frames rest

/-- The element encodings all have the length used to compute the frame length. -/
def Uniform (i L : Nat) (hist : List (Heap × Bool × Bool)) : Prop :=
  ∀ c ∈ hist, ∃ b, c.1.bytes i = .ok b ∧ b.length = L

/-- The pending bytes are whole elements, fewer than fill a frame. -/
def Pending (f : Framer) (pend : List Bytes) : Prop :=
  f.raw = pend.flatten ∧ f.elements = pend.length ∧ pend.length < f.length

theorem flatten_length (L : Nat) (l : List Bytes) (h : ∀ b ∈ l, b.length = L) : l.flatten.length = l.length * L := by
  induction l with
  | nil => simp
  | cons x xs ih =>
    rw [List.flatten_cons, List.length_append, h x List.mem_cons_self,
      ih (fun b hb => h b (List.mem_cons_of_mem _ hb)), List.length_cons, Nat.add_mul]
    omega

/-- Splitting the captured elements into frames. -/
theorem run_spec (L : Nat) (hL : 0 < L) (hist : List (Heap × Bool × Bool)) (f : Framer) (pend : List Bytes)
    (hu : Uniform f.inst L hist) (hp : Pending f pend) (hpl : ∀ b ∈ pend, b.length = L) :
    ∃ (groups : List (List Bytes)) (pend' : List Bytes), frames (f.run hist).2 = groups.map List.flatten
      ∧ Pending (f.run hist).1 pend' ∧ (f.run hist).1.length = f.length ∧ (f.run hist).1.inst = f.inst
      ∧ groups.flatten ++ pend' = pend ++ sampled f.inst hist
      ∧ (∀ g ∈ groups, g ≠ [] ∧ g.length ≤ f.length)
      ∧ (∀ b ∈ groups.flatten ++ pend', b.length = L) := by
  induction hist generalizing f pend with
  | nil =>
    exact ⟨[], pend, rfl, hp, rfl, rfl, by simp [sampled], fun g hg => (by cases hg), by simpa using hpl⟩
  | cons c rest ih =>
    obtain ⟨h, s, fl⟩ := c
    obtain ⟨b, hb, hbl⟩ := hu (h, s, fl) List.mem_cons_self
    dsimp only at hb
    have hur : Uniform f.inst L rest := fun c hc => hu c (List.mem_cons_of_mem _ hc)
    obtain ⟨hraw, hel, hlt⟩ := hp
    -- the elements after sampling
    obtain ⟨pend1, hp1, hps, hpl1⟩ : ∃ pend1, pend1 = (if s then pend ++ [b] else pend)
        ∧ pend1 ++ sampled f.inst rest = pend ++ sampled f.inst ((h, s, fl) :: rest)
        ∧ ∀ x ∈ pend1, x.length = L := by
      refine ⟨_, rfl, ?_, ?_⟩
      · cases s <;> simp [sampled, hb]
      · cases s with
        | false => simpa using hpl
        | true =>
          simp only [if_true]
          intro x hx
          rcases List.mem_append.mp hx with hx | hx
          · exact hpl x hx
          · rw [List.mem_singleton.mp hx]; exact hbl
    let f1 : Framer := { f with raw := pend1.flatten, elements := pend1.length }
    have hcap : f.capture h s fl = if f1.raw ≠ [] ∧ (fl = true ∨ f1.elements = f1.length)
        then (f1.reset, .ok (some f1.raw)) else (f1, .ok none) := by
      cases s with
      | false =>
        have e1 : pend1 = pend := by simpa using hp1
        have e2 : f1 = f := by
          show ({ f with raw := pend1.flatten, elements := pend1.length } : Framer) = f
          rw [e1, ← hraw, ← hel]
        rw [e2]
        simp only [Framer.capture, Bool.false_eq_true, if_false]
      | true =>
        have e1 : pend1 = pend ++ [b] := by simpa using hp1
        have e2 : f1 = { f with raw := f.raw ++ b, elements := f.elements + 1 } := by
          show ({ f with raw := pend1.flatten, elements := pend1.length } : Framer) = _
          rw [e1, hraw, hel]
          simp
        rw [e2]
        simp only [Framer.capture, if_true, hb]
    have hle1 : pend1.length ≤ f.length := by
      rw [hp1]
      cases s
      · simp only [Bool.false_eq_true, if_false]; omega
      · simp only [if_true, List.length_append, List.length_singleton]; omega
    unfold Framer.run
    dsimp only
    by_cases hemit : f1.raw ≠ [] ∧ (fl = true ∨ f1.elements = f1.length)
    · rw [if_pos hemit] at hcap
      rw [hcap]
      dsimp only
      obtain ⟨groups, pend', g1, g2, g3, g4, g5, g6, g7⟩ := ih f1.reset [] hur
        ⟨rfl, rfl, Nat.lt_of_le_of_lt (Nat.zero_le _) hlt⟩ (fun b hb => by cases hb)
      refine ⟨pend1 :: groups, pend', ?_, g2, g3, g4, ?_, ?_, ?_⟩
      · simp only [frames, List.map_cons]; rw [g1]
      · rw [List.flatten_cons, List.append_assoc, g5, List.nil_append]; exact hps
      · intro g hg
        rcases List.mem_cons.mp hg with rfl | hg
        · refine ⟨?_, hle1⟩
          rintro rfl
          exact hemit.1 rfl
        · exact g6 g hg
      · rw [List.flatten_cons, List.append_assoc]
        intro x hx
        rcases List.mem_append.mp hx with hx | hx
        · exact hpl1 x hx
        · exact g7 x hx
    · rw [if_neg hemit] at hcap
      rw [hcap]
      dsimp only
      have hlt1 : pend1.length < f.length := by
        rcases Nat.lt_or_ge pend1.length f.length with hx | hx
        · exact hx
        · exfalso
          apply hemit
          have hpos : 0 < pend1.length := by omega
          refine ⟨?_, Or.inr (by show pend1.length = f.length; omega)⟩
          show pend1.flatten ≠ []
          intro hnil
          have := flatten_length L pend1 hpl1
          rw [hnil] at this
          have h2 := Nat.mul_pos hpos hL
          simp at this
          omega
      obtain ⟨groups, pend', g1, g2, g3, g4, g5, g6, g7⟩ := ih f1 pend1 hur ⟨rfl, rfl, hlt1⟩ hpl1
      exact ⟨groups, pend', by simp only [frames]; exact g1, g2, g3, g4, by rw [g5]; exact hps, g6, g7⟩

/-- The frame length chosen for an MTU is the number of elements that fit. -/
theorem setMtu_spec (h : Heap) (f : Framer) (mtu overhead : Int) (n : Nat) (hn : (f.setMtu h mtu overhead).2 = .ok n) :
    ∃ L, h.length f.inst = .ok L ∧ 0 < L ∧ 0 < n ∧ (n * L : Int) ≤ mtu - overhead ∧ mtu - overhead < (n + 1) * L
      ∧ (f.setMtu h mtu overhead).1 = ⟨f.inst, n, 0, []⟩ := by
  unfold Framer.setMtu at hn ⊢
  cases hl : h.length f.inst with
  | error e => rw [hl] at hn; cases hn
  | ok L =>
    rw [hl] at hn
    dsimp only at hn ⊢
    split at hn
    · rename_i hL
      split at hn
      · rename_i hlen
        injection hn with hn
        rw [if_pos hL, if_pos hlen]
        have h1 : (n : Int) = Int.fdiv (mtu - overhead) L := by omega
        have hLp : (0 : Int) < L := by omega
        refine ⟨L, rfl, hL, by omega, ?_, ?_, by simp only [Framer.reset, hn]⟩
        · have e1 := Int.mul_fdiv_add_fmod (mtu - overhead) L
          have e2 := Int.fmod_nonneg_of_pos (mtu - overhead) hLp
          rw [h1, Int.mul_comm]; omega
        · rw [h1]; exact Int.lt_fdiv_add_one_mul_self _ hLp
      · cases hn
    · cases hn

/-- C26. After setting the MTU, over any history of captures and flushes of elements whose
encoding has the length of the framed instance: the frames, in order, followed by the pending
bytes, are the concatenation of the sampled encodings; each frame is a run of at least one whole
element, no longer than the MTU less the overhead; the pending bytes are whole elements and leave
room for one more. -/
theorem C26_frames (h0 : Heap) (f0 f : Framer) (mtu overhead : Int) (n L : Nat)
    (hset : f0.setMtu h0 mtu overhead = (f, .ok n)) (hL : h0.length f0.inst = .ok L)
    (hist : List (Heap × Bool × Bool)) (hu : Uniform f0.inst L hist) :
    (frames (f.run hist).2).flatten ++ (f.run hist).1.raw = (sampled f0.inst hist).flatten
    ∧ (∀ fr ∈ frames (f.run hist).2, fr ≠ [] ∧ L ∣ fr.length ∧ (fr.length : Int) ≤ mtu - overhead)
    ∧ (∃ groups : List (List Bytes), frames (f.run hist).2 = groups.map List.flatten
        ∧ ∃ pend : List Bytes, (f.run hist).1.raw = pend.flatten ∧ groups.flatten ++ pend = sampled f0.inst hist)
    ∧ ((f.run hist).1.raw.length + L : Int) ≤ mtu - overhead := by
  obtain ⟨L', l1, l2, l3, l4, l5, l6⟩ := setMtu_spec h0 f0 mtu overhead n (by rw [hset])
  rw [hL] at l1
  cases l1
  rw [hset] at l6
  dsimp only at l6
  subst l6
  obtain ⟨groups, pend', g1, g2, g3, g4, g5, g6, g7⟩ := run_spec L l2 hist ⟨f0.inst, n, 0, []⟩ [] hu
    ⟨rfl, rfl, l3⟩ (fun b hb => by cases hb)
  rw [List.nil_append] at g5
  obtain ⟨p1, p2, p3⟩ := g2
  rw [g3] at p3
  refine ⟨?_, ?_, ⟨groups, g1, pend', p1, g5⟩, ?_⟩
  · rw [g1, p1, ← g5, List.flatten_append]
    congr 1
    rw [List.flatten_flatten]
  · intro fr hfr
    rw [g1] at hfr
    obtain ⟨g, hg, rfl⟩ := List.mem_map.mp hfr
    obtain ⟨k1, k2⟩ := g6 g hg
    have hlen := flatten_length L g (fun b hb => g7 b (List.mem_append_left _ (List.mem_flatten.mpr ⟨g, hg, hb⟩)))
    have hgp : 0 < g.length := List.length_pos_of_ne_nil k1
    refine ⟨?_, ⟨g.length, by rw [hlen, Nat.mul_comm]⟩, ?_⟩
    · intro hnil
      rw [hnil] at hlen
      have := Nat.mul_pos hgp l2
      simp at hlen
      omega
    · rw [hlen]
      have : g.length * L ≤ n * L := Nat.mul_le_mul_right L k2
      have h2 : ((g.length * L : Nat) : Int) ≤ ((n * L : Nat) : Int) := by exact_mod_cast this
      have h3 : ((n * L : Nat) : Int) = n * L := by push_cast; rfl
      omega
  · have hlen := flatten_length L pend' (fun b hb => g7 b (List.mem_append_right _ hb))
    rw [p1, hlen]
    have : (pend'.length + 1) * L ≤ n * L := Nat.mul_le_mul_right L p3
    have h2 : (((pend'.length + 1) * L : Nat) : Int) ≤ ((n * L : Nat) : Int) := by exact_mod_cast this
    have h3 : ((n * L : Nat) : Int) = n * L := by push_cast; rfl
    have h4 : (((pend'.length + 1) * L : Nat) : Int) = ((pend'.length * L : Nat) : Int) + L := by
      push_cast; rw [Int.add_mul]; omega
    omega

/-- C26. A frame that is not a flush is full: one more element would exceed the MTU. -/
theorem C26_full (h0 h : Heap) (f0 f1 f f' : Framer) (mtu overhead : Int) (n L : Nat) (hist : List (Heap × Bool × Bool))
    (hset : f0.setMtu h0 mtu overhead = (f1, .ok n)) (hL : h0.length f0.inst = .ok L)
    (hu : Uniform f0.inst L hist) (hrun : (f1.run hist).1 = f) (hb : ∃ b, h.bytes f0.inst = .ok b ∧ b.length = L)
    (s : Bool) (fr : Bytes) (hcap : f.capture h s false = (f', .ok (some fr))) :
    s = true ∧ mtu - overhead < fr.length + L := by
  obtain ⟨L', l1, l2, l3, l4, l5, l6⟩ := setMtu_spec h0 f0 mtu overhead n (by rw [hset])
  rw [hL] at l1
  cases l1
  rw [hset] at l6
  dsimp only at l6
  subst l6
  obtain ⟨groups, pend, g1, g2, g3, g4, g5, g6, g7⟩ := run_spec L l2 hist ⟨f0.inst, n, 0, []⟩ [] hu
    ⟨rfl, rfl, l3⟩ (fun b hb => by cases hb)
  rw [hrun] at g2 g3 g4
  dsimp only at g3 g4
  obtain ⟨p1, p2, p3⟩ := g2
  obtain ⟨b, hb1, hb2⟩ := hb
  have hlen := flatten_length L pend (fun b hb => g7 b (List.mem_append_right _ hb))
  unfold Framer.capture at hcap
  cases s with
  | false =>
    simp only [Bool.false_eq_true, if_false, false_or] at hcap
    split at hcap
    · rename_i hx; have := hx.2; omega
    · cases hcap
  | true =>
    simp only [if_true, g4, hb1, Bool.false_eq_true, false_or] at hcap
    split at hcap
    · rename_i hx
      have h2 := hx.2
      injection hcap with hc1 hc2
      injection hc2 with hc2
      injection hc2 with hc2
      refine ⟨rfl, ?_⟩
      rw [← hc2, List.length_append, p1, hlen, hb2]
      have h3 : pend.length + 1 = n := by omega
      have h4 : (((pend.length * L + L : Nat)) : Int) = n * L := by
        rw [← h3]; push_cast; rw [Int.add_mul]; omega
      have h5 : ((n : Int) + 1) * L = n * L + L := by rw [Int.add_mul]; omega
      rw [h4]; omega
    · cases hcap

/-- C26. A flush empties the pending bytes. -/
theorem C26_flush (h : Heap) (f f' : Framer) (s : Bool) (r : Option Bytes)
    (hcap : f.capture h s true = (f', .ok r)) : f'.raw = [] := by
  unfold Framer.capture at hcap
  dsimp only at hcap
  split at hcap
  · cases hcap
  · rename_i f1 hf1
    split at hcap
    · cases hcap; rfl
    · rename_i hx
      cases hcap
      by_contra hne
      exact hx ⟨hne, Or.inl rfl⟩

/-- The bytes of a chained instance leave the chain out while the frame length counts it: the
members after the first are never sent. -/
theorem C26_chain_fails :
    let h := (Heap.empty.newNode (.fixed [1, 2])).1
    let h := (h.newNode (.fixed [3, 4])).1
    let h := (h.assign 0 1).1
    h.length 0 = .ok 4 ∧ (Framer.new h 0 8).2 = .ok 2
    ∧ ((Framer.new h 0 8).1.run [(h, true, false), (h, true, false)]).2 = [.ok none, .ok (some [1, 2, 1, 2])] := by
  decide

/-- Setting the MTU drops the pending elements. -/
theorem C26_set_mtu_drops_fails :
    let h := (Heap.empty.newNode (.fixed [1, 2])).1
    let f := ((Framer.new h 0 8).1.run [(h, true, false)]).1
    f.raw = [1, 2] ∧ (f.setMtu h 6 0).1.raw = [] := by
  decide

example : let h := (Heap.empty.newNode (.fixed [1, 2])).1
    let h' := (h.update 0 [3, 4]).1
    (Framer.new h 0 5).2 = .ok 2
    ∧ ((Framer.new h 0 5).1.run [(h, true, false), (h', true, false), (h', true, false), (h, false, true)]).2
      = [.ok none, .ok (some [1, 2, 3, 4]), .ok none, .ok (some [3, 4])] := by decide

end Verif.Serial
