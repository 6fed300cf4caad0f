import Verif.Json.Exchange
/-!
C45, C46, C47: two interfaces exchanging messages (`JsonMessageInterface` on both sides).
-/
namespace Verif.Json

variable {S C : Type}

/-! ### Two ends -/

/-- Two interfaces and the messages between them, with their senders; messages may be lost and may
arrive in any order (as over UDP), but are not duplicated. -/
structure Sys (S C : Type) where
  ends : Bool → End S C
  flight : List (Bool × Msg C)

/-- Replace one end. -/
def put (f : Bool → End S C) (s : Bool) (e : End S C) : Bool → End S C := fun t => if t = s then e else f t

/-- What is observed of a system. -/
inductive SEv (C : Type) where
  | asked (s : Bool) (i : Int) (q : C)
  | answered (s : Bool) (i : Int) (q r : C)
  | sent (s : Bool) (m : Msg C)
  | finished (s : Bool) (i : Int) (r : Result C)
  | failed (s : Bool) (e : PyErr)

/-- Steps of a system in which only `wait_json` starts exchanges. -/
inductive Step (h : Bool → S → C → S × C) (isEmpty : C → Bool) : Sys S C → List (SEv C) → Sys S C → Prop
  | ask (σ : Sys S C) (s : Bool) (q : C) (e : End S C) (m : Msg C) : (σ.ends s).ask q = (e, .ok m) →
      Step h isEmpty σ [.asked s (m.id.getD 0) q, .sent s m] ⟨put σ.ends s e, σ.flight ++ [(s, m)]⟩
  | askFails (σ : Sys S C) (s : Bool) (q : C) (e : End S C) (x : PyErr) : (σ.ends s).ask q = (e, .error x) →
      Step h isEmpty σ [.failed s x] ⟨put σ.ends s e, σ.flight⟩
  | quiet (σ : Sys S C) (s : Bool) (m : Msg C) (a b : List (Bool × Msg C)) (e : End S C) :
      σ.flight = a ++ (s, m) :: b → (σ.ends (!s)).recv (h (!s)) isEmpty m = (e, none) →
      Step h isEmpty σ [] ⟨put σ.ends (!s) e, a ++ b⟩
  | reply (σ : Sys S C) (s : Bool) (m r : Msg C) (a b : List (Bool × Msg C)) (e : End S C) :
      σ.flight = a ++ (s, m) :: b → (σ.ends (!s)).recv (h (!s)) isEmpty m = (e, some r) →
      Step h isEmpty σ [.answered (!s) (m.id.getD 0) m.content r.content, .sent (!s) r]
        ⟨put σ.ends (!s) e, a ++ b ++ [((!s), r)]⟩
  | lose (σ : Sys S C) (x : Bool × Msg C) (a b : List (Bool × Msg C)) :
      σ.flight = a ++ x :: b → Step h isEmpty σ [] ⟨σ.ends, a ++ b⟩
  | resume (σ : Sys S C) (s : Bool) (i : Int) (e : End S C) (c : C) :
      i ∈ (σ.ends s).pending → i ∈ (σ.ends s).fired → (σ.ends s).resume i = (e, .ok c) →
      Step h isEmpty σ [.finished s i (.reply c)] ⟨put σ.ends s e, σ.flight⟩
  | expire (σ : Sys S C) (s : Bool) (i : Int) : i ∈ (σ.ends s).pending →
      Step h isEmpty σ [.finished s i .timeout] ⟨put σ.ends s ((σ.ends s).expire i), σ.flight⟩

/-- Runs from two new interfaces. -/
inductive Run (h : Bool → S → C → S × C) (isEmpty : C → Bool) (start : Bool → Int) (st : Bool → S) :
    Sys S C → List (SEv C) → Prop
  | new : Run h isEmpty start st ⟨fun s => End.new (start s) (st s), []⟩ []
  | step (σ σ' : Sys S C) (l x : List (SEv C)) : Run h isEmpty start st σ l → Step h isEmpty σ x σ' →
      Run h isEmpty start st σ' (l ++ x)

/-- Runs of `n` steps from a given system. -/
inductive Run' (h : Bool → S → C → S × C) (isEmpty : C → Bool) (σ₀ : Sys S C) : Nat → Sys S C → List (SEv C) → Prop
  | refl : Run' h isEmpty σ₀ 0 σ₀ []
  | step (n : Nat) (σ σ' : Sys S C) (l x : List (SEv C)) : Run' h isEmpty σ₀ n σ l → Step h isEmpty σ x σ' →
      Run' h isEmpty σ₀ (n + 1) σ' (l ++ x)

/-- Identifiers handed out from `a` on. -/
def Own (a i : Int) : Prop := (i - a) % 2 = 0

/-- `n` calls of an identifier. -/
def calls : Int → Nat → List Int
  | _, 0 => []
  | c, n + 1 => (nextId c).1 :: calls (nextId c).2 n

theorem mem_calls (c : Int) (n : Nat) (i : Int) : i ∈ calls c n ↔ ∃ k : Nat, k < n ∧ i = c + 2 * k := by
  induction n generalizing c with
  | zero => simp [calls]
  | succ n ih =>
    simp only [calls, nextId, List.mem_cons, ih]
    constructor
    · rintro (rfl | ⟨k, hk, rfl⟩)
      · exact ⟨0, by omega, by omega⟩
      · exact ⟨k + 1, by omega, by omega⟩
    · rintro ⟨k, hk, rfl⟩
      cases k with
      | zero => exact Or.inl (by omega)
      | succ k => exact Or.inr ⟨k, by omega, by omega⟩

/-- C46. However many identifiers one interface hands out, they are distinct. -/
theorem C46_distinct (start : Int) (n : Nat) : (calls start n).Nodup ∧ (calls start n).length = n := by
  induction n generalizing start with
  | zero => exact ⟨List.nodup_nil, rfl⟩
  | succ n ih =>
    refine ⟨List.nodup_cons.mpr ⟨?_, (ih _).1⟩, by simp [calls, (ih _).2]⟩
    intro hm
    obtain ⟨k, _, hk⟩ := (mem_calls _ _ _).mp hm
    simp only [nextId] at hk
    omega

/-- C46. A program (starting at 1) and its peer (starting at 2) never hand out the same one. -/
theorem C46_subprocess (n m : Nat) : ∀ i ∈ calls 1 n, i ∉ calls 2 m := by
  intro i hi hm
  obtain ⟨k, _, hk⟩ := (mem_calls _ _ _).mp hi
  obtain ⟨j, _, hj⟩ := (mem_calls _ _ _).mp hm
  omega

/-- The two ends of a network connection do: they start alike, so every identifier of the shorter list
is in the longer. -/
theorem C46_network_fails (n m : Nat) (h : n ≤ m) : ∀ i ∈ calls 1 n, i ∈ calls 1 m := by
  intro i hi
  obtain ⟨k, hk, e⟩ := (mem_calls _ _ _).mp hi
  exact (mem_calls _ _ _).mpr ⟨k, by omega, e⟩

/-- What holds of two ends whose identifiers do not meet. -/
structure SInv (start : Bool → Int) (ends : Bool → End S C) (fl : List (Bool × Msg C)) (l : List (SEv C)) : Prop where
  own : ∀ s, Own (start s) (ends s).next
  waiting : ∀ s, ∀ i ∈ (ends s).waiting, Own (start s) i ∧ i < (ends s).next
  flight : ∀ x ∈ fl, ∃ i, x.2.id = some i ∧
    ((Own (start x.1) i ∧ i ∈ (ends x.1).waiting ∧ SEv.asked x.1 i x.2.content ∈ l) ∨
     (Own (start (!x.1)) i ∧ i ∈ (ends (!x.1)).waiting ∧
       ∃ q, SEv.asked (!x.1) i q ∈ l ∧ SEv.answered x.1 i q x.2.content ∈ l))
  nodup : (fl.map (fun x => x.2.id)).Nodup
  responses : ∀ s, ∀ p ∈ (ends s).responses,
    ∃ q, SEv.asked s p.1 q ∈ l ∧ SEv.answered (!s) p.1 q p.2 ∈ l
  finished : ∀ s i c, SEv.finished s i (.reply c) ∈ l →
    ∃ q, SEv.asked s i q ∈ l ∧ SEv.answered (!s) i q c ∈ l
  ok : ∀ s x, SEv.failed s x ∉ l


theorem put_self (f : Bool → End S C) (s : Bool) (e : End S C) : put f s e s = e := by simp [put]

theorem put_other (f : Bool → End S C) (s : Bool) (e : End S C) : put f s e (!s) = f (!s) := by
  cases s <;> simp [put]

theorem put_other' (f : Bool → End S C) (s : Bool) (e : End S C) : put f (!s) e s = f s := by
  cases s <;> simp [put]

theorem put_ne (f : Bool → End S C) (s t : Bool) (e : End S C) (h : t ≠ s) : put f s e t = f t := by
  simp [put, h]

/-- Flight entries only depend on the tables of waiting identifiers and on the log. -/
theorem flight_mono {start : Bool → Int} {σ : Sys S C} {f : Bool → End S C} {l l' : List (SEv C)} {x : Bool × Msg C}
    (hw : ∀ s i, i ∈ (σ.ends s).waiting → x.2.id = some i → i ∈ (f s).waiting) (hl : ∀ y ∈ l, y ∈ l')
    (h : ∃ i, x.2.id = some i ∧
      ((Own (start x.1) i ∧ i ∈ (σ.ends x.1).waiting ∧ SEv.asked x.1 i x.2.content ∈ l) ∨
       (Own (start (!x.1)) i ∧ i ∈ (σ.ends (!x.1)).waiting ∧
         ∃ q, SEv.asked (!x.1) i q ∈ l ∧ SEv.answered x.1 i q x.2.content ∈ l))) :
    ∃ i, x.2.id = some i ∧
      ((Own (start x.1) i ∧ i ∈ (f x.1).waiting ∧ SEv.asked x.1 i x.2.content ∈ l') ∨
       (Own (start (!x.1)) i ∧ i ∈ (f (!x.1)).waiting ∧
         ∃ q, SEv.asked (!x.1) i q ∈ l' ∧ SEv.answered x.1 i q x.2.content ∈ l')) := by
  obtain ⟨i, hid, h⟩ := h
  refine ⟨i, hid, ?_⟩
  rcases h with ⟨h1, h2, h3⟩ | ⟨h1, h2, q, h3, h4⟩
  · exact Or.inl ⟨h1, hw _ _ h2 hid, hl _ h3⟩
  · exact Or.inr ⟨h1, hw _ _ h2 hid, q, hl _ h3, hl _ h4⟩

theorem sinv_step (h : Bool → S → C → S × C) (isEmpty : C → Bool) (start : Bool → Int)
    (hs : (start true - start false) % 2 ≠ 0) (σ σ' : Sys S C) (l x : List (SEv C)) (hi : SInv start σ.ends σ.flight l)
    (hst : Step h isEmpty σ x σ') : SInv start σ'.ends σ'.flight (l ++ x) := by
  have hdis : ∀ s i, Own (start s) i → ¬ Own (start (!s)) i := by
    intro s i h1 h2
    unfold Own at h1 h2
    cases s <;> simp only [Bool.not_false, Bool.not_true] at h1 h2 <;> omega
  have hleft : ∀ y ∈ l, y ∈ l ++ x := fun y hy => List.mem_append_left _ hy
  cases hst with
  | ask s q e m hask =>
    have hnw : (σ.ends s).next ∉ (σ.ends s).waiting := by
      intro hw
      have := (hi.waiting s _ hw).2
      omega
    have hm : (e, Except.ok m) = ((⟨(σ.ends s).next + 2, (σ.ends s).waiting ++ [(σ.ends s).next], (σ.ends s).responses,
        (σ.ends s).fired, (σ.ends s).pending ++ [(σ.ends s).next], (σ.ends s).state⟩ : End S C),
        (Except.ok ⟨some (σ.ends s).next, q⟩ : Except PyErr (Msg C))) := by
      rw [← hask]; simp [End.ask, nextId, hnw]
    injection hm with he hm
    injection hm with hm
    subst hm
    have hown := hi.own s
    dsimp only
    refine ⟨?_, ?_, ?_, ?_, ?_, ?_, ?_⟩
    · intro t
      by_cases ht : t = s
      · subst ht; rw [put_self, he]; unfold Own at hown ⊢; simp only; omega
      · rw [put_ne _ _ _ _ ht]; exact hi.own t
    · intro t i hw
      by_cases ht : t = s
      · subst ht
        rw [put_self, he] at hw ⊢
        rcases List.mem_append.mp hw with hw | hw
        · have := hi.waiting t i hw
          exact ⟨this.1, by simp only; omega⟩
        · rw [List.mem_singleton] at hw
          subst hw
          exact ⟨hown, by simp only; omega⟩
      · rw [put_ne _ _ _ _ ht] at hw ⊢; exact hi.waiting t i hw
    · intro y hy
      rcases List.mem_append.mp hy with hy | hy
      · refine flight_mono ?_ hleft (hi.flight y hy)
        intro t i hw _
        by_cases ht : t = s
        · subst ht; rw [put_self, he]; exact List.mem_append_left _ hw
        · rw [put_ne _ _ _ _ ht]; exact hw
      · rw [List.mem_singleton] at hy
        subst hy
        refine ⟨(σ.ends s).next, rfl, Or.inl ⟨hown, ?_, ?_⟩⟩
        · rw [put_self, he]; simp
        · simp
    · rw [List.map_append, List.nodup_append]
      refine ⟨hi.nodup, List.pairwise_singleton _ _, ?_⟩
      intro a ha b hb hab
      rw [List.map_singleton, List.mem_singleton] at hb
      subst hb; subst hab
      obtain ⟨y, hy, hyid⟩ := List.mem_map.mp ha
      obtain ⟨i, hid, hcase⟩ := hi.flight y hy
      rw [hid] at hyid
      injection hyid with hyid
      subst hyid
      rcases hcase with ⟨h1, h2, -⟩ | ⟨h1, h2, -⟩
      · by_cases hys : y.1 = s
        · rw [hys] at h2; exact hnw h2
        · have : y.1 = !s := by cases hy1 : y.1 <;> cases s <;> simp_all
          rw [this] at h1
          exact hdis s _ hown h1
      · by_cases hys : y.1 = s
        · rw [hys] at h1; exact hdis s _ hown h1
        · have : (!y.1) = s := by cases hy1 : y.1 <;> cases s <;> simp_all
          rw [this] at h2
          exact hnw h2
    · intro t p hp
      have : p ∈ (σ.ends t).responses := by
        by_cases ht : t = s
        · subst ht; rw [put_self, he] at hp; exact hp
        · rw [put_ne _ _ _ _ ht] at hp; exact hp
      obtain ⟨q', h1, h2⟩ := hi.responses t p this
      exact ⟨q', hleft _ h1, hleft _ h2⟩
    · intro t i c hm
      rcases List.mem_append.mp hm with hm | hm
      · obtain ⟨q', h1, h2⟩ := hi.finished t i c hm
        exact ⟨q', hleft _ h1, hleft _ h2⟩
      · simp at hm
    · intro t z hm
      rcases List.mem_append.mp hm with hm | hm
      · exact hi.ok t z hm
      · simp at hm
  | askFails s q e z hask =>
    have hnw : (σ.ends s).next ∉ (σ.ends s).waiting := by
      intro hw
      have := (hi.waiting s _ hw).2
      omega
    simp [End.ask, nextId, hnw] at hask
  | quiet s m a b e hfl hrecv =>
    have hmem : (s, m) ∈ σ.flight := by rw [hfl]; simp
    obtain ⟨i, hid, hcase⟩ := hi.flight _ hmem
    simp only at hid hcase
    have hw : i ∈ (σ.ends (!s)).waiting := by
      rcases hcase with ⟨h1, -, -⟩ | ⟨-, h2, -⟩
      · apply Classical.byContradiction
        intro hn
        simp [End.recv, hid, hn] at hrecv
      · exact h2
    have hrep : Own (start (!s)) i ∧ ∃ q, SEv.asked (!s) i q ∈ l ∧ SEv.answered s i q m.content ∈ l := by
      rcases hcase with ⟨h1, -, -⟩ | ⟨h1, -, h3⟩
      · exact absurd (hi.waiting _ _ hw).1 (hdis s i h1)
      · exact ⟨h1, h3⟩
    have he : e = ⟨(σ.ends (!s)).next, (σ.ends (!s)).waiting.filter (· ≠ i), dset (σ.ends (!s)).responses i m.content,
        i :: (σ.ends (!s)).fired, (σ.ends (!s)).pending, (h (!s) (σ.ends (!s)).state m.content).1⟩ := by
      have : (σ.ends (!s)).recv (h (!s)) isEmpty m = (⟨(σ.ends (!s)).next, (σ.ends (!s)).waiting.filter (· ≠ i),
        dset (σ.ends (!s)).responses i m.content,
        i :: (σ.ends (!s)).fired, (σ.ends (!s)).pending, (h (!s) (σ.ends (!s)).state m.content).1⟩, none) := by
        simp [End.recv, hid, hw]
      rw [this] at hrecv
      injection hrecv with h1 h2
      exact h1.symm
    have hsub : ∀ y ∈ a ++ b, y ∈ σ.flight := by
      intro y hy
      rw [hfl]
      rcases List.mem_append.mp hy with hy | hy
      · exact List.mem_append_left _ hy
      · exact List.mem_append_right _ (List.mem_cons_of_mem _ hy)
    have hnd := hi.nodup
    rw [hfl, List.map_append, List.map_cons] at hnd
    have hnd2 : (((a ++ b).map (fun x : Bool × Msg C => x.2.id))).Nodup ∧ ∀ y ∈ a ++ b, y.2.id ≠ some i := by
      rw [List.map_append]
      rw [List.nodup_append, List.nodup_cons] at hnd
      obtain ⟨n1, ⟨n2, n3⟩, n4⟩ := hnd
      refine ⟨List.nodup_append.mpr ⟨n1, n3, fun a ha b hb => n4 a ha b (List.mem_cons_of_mem _ hb)⟩, ?_⟩
      intro y hy e'
      rcases List.mem_append.mp hy with hy | hy
      · exact n4 _ (List.mem_map.mpr ⟨y, hy, rfl⟩) _ List.mem_cons_self (by rw [e']; exact hid.symm)
      · apply n2
        rw [hid]
        exact List.mem_map.mpr ⟨y, hy, e'⟩
    dsimp only
    refine ⟨?_, ?_, ?_, hnd2.1, ?_, ?_, ?_⟩
    · intro t
      by_cases ht : t = !s
      · subst ht; rw [put_self, he]; exact hi.own _
      · rw [put_ne _ _ _ _ ht]; exact hi.own t
    · intro t j hw'
      by_cases ht : t = !s
      · subst ht
        rw [put_self, he] at hw' ⊢
        exact hi.waiting _ j (List.mem_filter.mp hw').1
      · rw [put_ne _ _ _ _ ht] at hw' ⊢; exact hi.waiting t j hw'
    · intro y hy
      refine flight_mono ?_ hleft (hi.flight y (hsub y hy))
      intro t j hw' hj
      by_cases ht : t = !s
      · subst ht
        rw [put_self, he]
        refine List.mem_filter.mpr ⟨hw', ?_⟩
        have : j ≠ i := by
          intro e'; subst e'; exact hnd2.2 y hy hj
        simpa using this
      · rw [put_ne _ _ _ _ ht]; exact hw'
    · intro t p hp
      by_cases ht : t = !s
      · subst ht
        rw [put_self, he] at hp
        rcases mem_dset hp with hp | rfl
        · obtain ⟨q', h1, h2⟩ := hi.responses _ p hp
          exact ⟨q', hleft _ h1, hleft _ h2⟩
        · obtain ⟨-, q, h1, h2⟩ := hrep
          rw [Bool.not_not]
          exact ⟨q, hleft _ h1, hleft _ h2⟩
      · rw [put_ne _ _ _ _ ht] at hp
        obtain ⟨q', h1, h2⟩ := hi.responses _ p hp
        exact ⟨q', hleft _ h1, hleft _ h2⟩
    · intro t j c hm
      rw [List.append_nil] at hm ⊢
      exact hi.finished t j c hm
    · intro t z hm
      rw [List.append_nil] at hm
      exact hi.ok t z hm
  | reply s m r a b e hfl hrecv =>
    have hmem : (s, m) ∈ σ.flight := by rw [hfl]; simp
    obtain ⟨i, hid, hcase⟩ := hi.flight _ hmem
    simp only at hid hcase
    have hnw : i ∉ (σ.ends (!s)).waiting := by
      intro hw
      simp [End.recv, hid, hw] at hrecv
    have hreq : Own (start s) i ∧ i ∈ (σ.ends s).waiting ∧ SEv.asked s i m.content ∈ l := by
      rcases hcase with h1 | ⟨-, h2, -⟩
      · exact h1
      · exact absurd h2 hnw
    have hrr : (σ.ends (!s)).recv (h (!s)) isEmpty m = ({ σ.ends (!s) with state := (h (!s) (σ.ends (!s)).state m.content).1 },
        some ⟨some i, (h (!s) (σ.ends (!s)).state m.content).2⟩) := by
      simp [End.recv, hid, hnw]
    rw [hrr] at hrecv
    injection hrecv with he hr
    injection hr with hr
    have hrid : r.id = some i := by rw [← hr]
    have hsub : ∀ y ∈ a ++ b, y ∈ σ.flight := by
      intro y hy
      rw [hfl]
      rcases List.mem_append.mp hy with hy | hy
      · exact List.mem_append_left _ hy
      · exact List.mem_append_right _ (List.mem_cons_of_mem _ hy)
    have hends : ∀ t, (put σ.ends (!s) e t).next = (σ.ends t).next ∧ (put σ.ends (!s) e t).waiting = (σ.ends t).waiting ∧
        (put σ.ends (!s) e t).responses = (σ.ends t).responses := by
      intro t
      by_cases ht : t = !s
      · subst ht; rw [put_self, ← he]; exact ⟨rfl, rfl, rfl⟩
      · rw [put_ne _ _ _ _ ht]; exact ⟨rfl, rfl, rfl⟩
    dsimp only
    refine ⟨?_, ?_, ?_, ?_, ?_, ?_, ?_⟩
    · intro t; rw [(hends t).1]; exact hi.own t
    · intro t j hw; rw [(hends t).2.1] at hw; rw [(hends t).1]; exact hi.waiting t j hw
    · intro y hy
      rcases List.mem_append.mp hy with hy | hy
      · refine flight_mono ?_ hleft (hi.flight y (hsub y hy))
        intro t j hw _
        show j ∈ (put σ.ends (!s) e t).waiting
        rw [(hends t).2.1]; exact hw
      · rw [List.mem_singleton] at hy
        subst hy
        refine ⟨i, hrid, Or.inr ?_⟩
        simp only [Bool.not_not]
        refine ⟨hreq.1, ?_, m.content, hleft _ hreq.2.2, ?_⟩
        · rw [(hends s).2.1]; exact hreq.2.1
        · apply List.mem_append_right
          rw [hid]
          simp
    · have hnd := hi.nodup
      rw [hfl, List.map_append, List.map_cons] at hnd
      rw [List.map_append, List.map_append, List.map_singleton, hrid, ← hid]
      rw [List.nodup_append, List.nodup_cons] at hnd
      obtain ⟨n1, ⟨n2, n3⟩, n4⟩ := hnd
      refine List.nodup_append.mpr ⟨List.nodup_append.mpr ⟨n1, n3, fun a ha b hb => n4 a ha b (List.mem_cons_of_mem _ hb)⟩,
        List.pairwise_singleton _ _, ?_⟩
      intro x hx y hy hxy
      rw [List.mem_singleton] at hy
      subst hy; subst hxy
      rcases List.mem_append.mp hx with hx | hx
      · exact n4 _ hx _ List.mem_cons_self rfl
      · exact n2 hx
    · intro t p hp
      rw [(hends t).2.2] at hp
      obtain ⟨q', h1, h2⟩ := hi.responses t p hp
      exact ⟨q', hleft _ h1, hleft _ h2⟩
    · intro t j c hm
      rcases List.mem_append.mp hm with hm | hm
      · obtain ⟨q', h1, h2⟩ := hi.finished t j c hm
        exact ⟨q', hleft _ h1, hleft _ h2⟩
      · simp at hm
    · intro t z hm
      rcases List.mem_append.mp hm with hm | hm
      · exact hi.ok t z hm
      · simp at hm
  | lose y a b hfl =>
    have hsub : ∀ z ∈ a ++ b, z ∈ σ.flight := by
      intro z hz
      rw [hfl]
      rcases List.mem_append.mp hz with hz | hz
      · exact List.mem_append_left _ hz
      · exact List.mem_append_right _ (List.mem_cons_of_mem _ hz)
    rw [List.append_nil]
    dsimp only
    refine ⟨hi.own, hi.waiting, fun z hz => hi.flight z (hsub z hz), ?_, hi.responses, hi.finished, hi.ok⟩
    have hnd := hi.nodup
    rw [hfl] at hnd
    refine List.Nodup.sublist (List.Sublist.map _ ?_) hnd
    exact List.Sublist.append_left (List.sublist_cons_self _ _) a
  | resume s i e c hp hf hres =>
    have hr : ∃ c', dget (σ.ends s).responses i = some c' := by
      unfold End.resume at hres
      cases hd : dget (σ.ends s).responses i with
      | none => rw [hd] at hres; simp at hres
      | some c' => exact ⟨c', rfl⟩
    obtain ⟨c', hd⟩ := hr
    have he : e = { σ.ends s with pending := (σ.ends s).pending.filter (· ≠ i), responses := dpop (σ.ends s).responses i } ∧ c' = c := by
      simp only [End.resume, hd] at hres
      injection hres with h1 h2
      injection h2 with h2
      exact ⟨h1.symm, h2⟩
    obtain ⟨he, rfl⟩ := he
    have hends : ∀ t, (put σ.ends s e t).next = (σ.ends t).next ∧ (put σ.ends s e t).waiting = (σ.ends t).waiting ∧
        (∀ p ∈ (put σ.ends s e t).responses, p ∈ (σ.ends t).responses) := by
      intro t
      by_cases ht : t = s
      · subst ht; rw [put_self, he]; exact ⟨rfl, rfl, fun p hp => (List.mem_filter.mp hp).1⟩
      · rw [put_ne _ _ _ _ ht]; exact ⟨rfl, rfl, fun p hp => hp⟩
    dsimp only
    refine ⟨?_, ?_, ?_, hi.nodup, ?_, ?_, ?_⟩
    · intro t; rw [(hends t).1]; exact hi.own t
    · intro t j hw; rw [(hends t).2.1] at hw; rw [(hends t).1]; exact hi.waiting t j hw
    · intro y hy
      refine flight_mono ?_ hleft (hi.flight y hy)
      intro t j hw _
      show j ∈ (put σ.ends s e t).waiting
      rw [(hends t).2.1]; exact hw
    · intro t p hp
      obtain ⟨q', h1, h2⟩ := hi.responses t p ((hends t).2.2 p hp)
      exact ⟨q', hleft _ h1, hleft _ h2⟩
    · intro t j c hm
      rcases List.mem_append.mp hm with hm | hm
      · obtain ⟨q', h1, h2⟩ := hi.finished t j c hm
        exact ⟨q', hleft _ h1, hleft _ h2⟩
      · rw [List.mem_singleton] at hm
        injection hm with e1 e2 e3
        injection e3 with e3
        subst e1; subst e2; subst e3
        obtain ⟨q', h1, h2⟩ := hi.responses t (j, c) (dget_mem hd)
        exact ⟨q', hleft _ h1, hleft _ h2⟩
    · intro t z hm
      rcases List.mem_append.mp hm with hm | hm
      · exact hi.ok t z hm
      · simp at hm
  | expire s i hp =>
    have hends : ∀ t, (put σ.ends s ((σ.ends s).expire i) t).next = (σ.ends t).next ∧
        (put σ.ends s ((σ.ends s).expire i) t).waiting = (σ.ends t).waiting ∧
        (put σ.ends s ((σ.ends s).expire i) t).responses = (σ.ends t).responses := by
      intro t
      by_cases ht : t = s
      · subst ht; rw [put_self]; exact ⟨rfl, rfl, rfl⟩
      · rw [put_ne _ _ _ _ ht]; exact ⟨rfl, rfl, rfl⟩
    dsimp only
    refine ⟨?_, ?_, ?_, hi.nodup, ?_, ?_, ?_⟩
    · intro t; rw [(hends t).1]; exact hi.own t
    · intro t j hw; rw [(hends t).2.1] at hw; rw [(hends t).1]; exact hi.waiting t j hw
    · intro y hy
      refine flight_mono ?_ hleft (hi.flight y hy)
      intro t j hw _
      show j ∈ (put σ.ends s ((σ.ends s).expire i) t).waiting
      rw [(hends t).2.1]; exact hw
    · intro t p hp
      rw [(hends t).2.2] at hp
      obtain ⟨q', h1, h2⟩ := hi.responses t p hp
      exact ⟨q', hleft _ h1, hleft _ h2⟩
    · intro t j c hm
      rcases List.mem_append.mp hm with hm | hm
      · obtain ⟨q', h1, h2⟩ := hi.finished t j c hm
        exact ⟨q', hleft _ h1, hleft _ h2⟩
      · simp at hm
    · intro t z hm
      rcases List.mem_append.mp hm with hm | hm
      · exact hi.ok t z hm
      · simp at hm

theorem sinv_run (h : Bool → S → C → S × C) (isEmpty : C → Bool) (start : Bool → Int) (st : Bool → S)
    (hs : (start true - start false) % 2 ≠ 0) (σ : Sys S C) (l : List (SEv C)) (hr : Run h isEmpty start st σ l) :
    SInv start σ.ends σ.flight l := by
  induction hr with
  | new =>
    refine ⟨fun s => by unfold Own; simp [End.new], ?_, ?_, List.nodup_nil, ?_, ?_, ?_⟩
    · intro s i hw; cases hw
    · intro y hy; cases hy
    · intro s p hp; cases hp
    · intro s i c hm; cases hm
    · intro s z hm; cases hm
  | step σ σ' l x _ hst ih => exact sinv_step h isEmpty start hs σ σ' l x ih hst

/-- C45. Between a program and its peer process (whose identifiers have different parity), with any
handlers, any requests at any time on both ends, loss and reordering: an answered request got what the
other end's handlers returned for exactly that request. -/
theorem C45_exchange (h : Bool → S → C → S × C) (isEmpty : C → Bool) (start : Bool → Int) (st : Bool → S)
    (hs : (start true - start false) % 2 ≠ 0) (σ : Sys S C) (l : List (SEv C)) (hr : Run h isEmpty start st σ l) :
    (∀ s i c, SEv.finished s i (.reply c) ∈ l → ∃ q, SEv.asked s i q ∈ l ∧ SEv.answered (!s) i q c ∈ l) ∧
    (∀ s x, SEv.failed s x ∉ l) :=
  ⟨(sinv_run h isEmpty start st hs σ l hr).finished, (sinv_run h isEmpty start st hs σ l hr).ok⟩

/-! ### Termination -/

/-- The number of requests. -/
def asks (l : List (SEv C)) : Nat := (l.filter (fun | .asked .. => true | _ => false)).length

/-- The number of messages written. -/
def sends (l : List (SEv C)) : Nat := (l.filter (fun | .sent .. => true | _ => false)).length

/-- Requests still travelling. -/
def requests (start : Bool → Int) (f : List (Bool × Msg C)) : Nat :=
  (f.filter (fun x => decide ((x.2.id.getD 0 - start x.1) % 2 = 0))).length

theorem asks_append (l r : List (SEv C)) : asks (l ++ r) = asks l + asks r := by simp [asks]
theorem sends_append (l r : List (SEv C)) : sends (l ++ r) = sends l + sends r := by simp [sends]
theorem requests_append (start : Bool → Int) (a b : List (Bool × Msg C)) :
    requests start (a ++ b) = requests start a + requests start b := by simp [requests]

theorem requests_cons (start : Bool → Int) (x : Bool × Msg C) (b : List (Bool × Msg C)) :
    requests start (x :: b) = requests start [x] + requests start b := requests_append start [x] b

theorem sends_bound (h : Bool → S → C → S × C) (isEmpty : C → Bool) (start : Bool → Int) (st : Bool → S)
    (hs : (start true - start false) % 2 ≠ 0) (σ : Sys S C) (l : List (SEv C)) (hr : Run h isEmpty start st σ l) :
    sends l + requests start σ.flight ≤ 2 * asks l := by
  induction hr with
  | new => simp [sends, asks, requests]
  | step σ σ' l x hrun hst ih =>
    have hi := sinv_run h isEmpty start st hs σ l hrun
    have hdis : ∀ s i, Own (start s) i → ¬ Own (start (!s)) i := by
      intro s i h1 h2
      unfold Own at h1 h2
      cases s <;> simp only [Bool.not_false, Bool.not_true] at h1 h2 <;> omega
    rw [asks_append, sends_append]
    cases hst with
    | ask s q e m hask =>
      rw [requests_append]
      have h1 : requests start [(s, m)] ≤ 1 := by
        unfold requests
        exact List.length_filter_le _ _
      have h2 : asks [SEv.asked s (m.id.getD 0) q, SEv.sent s m] = 1 := rfl
      have h3 : sends [SEv.asked s (m.id.getD 0) q, SEv.sent s m] = 1 := rfl
      omega
    | askFails s q e z hask =>
      have h2 : asks [(SEv.failed s z : SEv C)] = 0 := rfl
      have h3 : sends [(SEv.failed s z : SEv C)] = 0 := rfl
      simp only
      omega
    | quiet s m a b e hfl hrecv =>
      rw [hfl, requests_append, requests_cons] at ih
      rw [requests_append]
      simp only [asks, sends, List.filter_nil, List.length_nil] at ih ⊢
      omega
    | reply s m r a b e hfl hrecv =>
      have hmem : (s, m) ∈ σ.flight := by rw [hfl]; simp
      obtain ⟨i, hid, hcase⟩ := hi.flight _ hmem
      simp only at hid hcase
      have hnw : i ∉ (σ.ends (!s)).waiting := by
        intro hw
        simp [End.recv, hid, hw] at hrecv
      have hown : Own (start s) i := by
        rcases hcase with h1 | ⟨-, h2, -⟩
        · exact h1.1
        · exact absurd h2 hnw
      have hrid : r.id = some i := by
        have hrr : (σ.ends (!s)).recv (h (!s)) isEmpty m = ({ σ.ends (!s) with state := (h (!s) (σ.ends (!s)).state m.content).1 },
            some ⟨some i, (h (!s) (σ.ends (!s)).state m.content).2⟩) := by
          simp [End.recv, hid, hnw]
        rw [hrr] at hrecv
        injection hrecv with he hr
        injection hr with hr
        rw [← hr]
      have e1 : requests start [(s, m)] = 1 := by
        unfold Own at hown
        simp [requests, hid, hown]
      have e2 : requests start [((!s), r)] = 0 := by
        have := hdis s i hown
        unfold Own at this
        simp [requests, hrid, this]
      rw [hfl, requests_append, requests_cons, e1] at ih
      rw [requests_append, requests_append, e2]
      have h2 : asks [SEv.answered (!s) (m.id.getD 0) m.content r.content, SEv.sent (!s) r] = 0 := rfl
      have h3 : sends [SEv.answered (!s) (m.id.getD 0) m.content r.content, SEv.sent (!s) r] = 1 := rfl
      omega
    | lose y a b hfl =>
      rw [hfl, requests_append, requests_cons] at ih
      rw [requests_append]
      simp only [asks, sends, List.filter_nil, List.length_nil] at ih ⊢
      omega
    | resume s i e c hp hf hres =>
      have h2 : asks [(SEv.finished s i (.reply c) : SEv C)] = 0 := rfl
      have h3 : sends [(SEv.finished s i (.reply c) : SEv C)] = 0 := rfl
      simp only
      omega
    | expire s i hp =>
      have h2 : asks [(SEv.finished s i .timeout : SEv C)] = 0 := rfl
      have h3 : sends [(SEv.finished s i .timeout : SEv C)] = 0 := rfl
      simp only
      omega

/-- C47. Between a program and its peer, `n` requests cause at most `2n` messages, whatever the handlers
answer: no reply is ever answered. -/
theorem C47_requests_finite (h : Bool → S → C → S × C) (isEmpty : C → Bool) (start : Bool → Int) (st : Bool → S)
    (hs : (start true - start false) % 2 ≠ 0) (σ : Sys S C) (l : List (SEv C)) (hr : Run h isEmpty start st σ l) :
    sends l ≤ 2 * asks l := by
  have := sends_bound h isEmpty start st hs σ l hr
  omega

/-! ### Ends with the same identifiers -/

/-- C45 and C46 fail between the two ends of a network connection: if both ask before either message
arrives, each takes the other's request for its own reply, and neither is answered. `n` is the
identifier they both use next, as it is from the start and after every such exchange. -/
theorem C45_collision_fails (h : Bool → S → C → S × C) (isEmpty : C → Bool) (σ : Sys S C) (n : Int) (qa qb : C)
    (hf : σ.flight = []) (hn : ∀ s, (σ.ends s).next = n) (hw : ∀ s, n ∉ (σ.ends s).waiting) :
    ∃ σ1 σ2 σ3 σ4 σ5 σ6 : Sys S C,
      Step h isEmpty σ [.asked true n qa, .sent true ⟨some n, qa⟩] σ1 ∧
      Step h isEmpty σ1 [.asked false n qb, .sent false ⟨some n, qb⟩] σ2 ∧
      Step h isEmpty σ2 [] σ3 ∧ Step h isEmpty σ3 [] σ4 ∧
      Step h isEmpty σ4 [.finished true n (.reply qb)] σ5 ∧
      Step h isEmpty σ5 [.finished false n (.reply qa)] σ6 ∧
      σ6.flight = [] ∧ ∀ s, (σ6.ends s).next = n + 2 := by
  have e1 : ∀ s q, (σ.ends s).ask q = (⟨n + 2, (σ.ends s).waiting ++ [n], (σ.ends s).responses, (σ.ends s).fired,
      (σ.ends s).pending ++ [n], (σ.ends s).state⟩, .ok ⟨some n, q⟩) := by
    intro s q
    have := hw s
    simp [End.ask, nextId, hn s, this]
  have s1 := Step.ask (h := h) (isEmpty := isEmpty) σ true qa _ _ (e1 true qa)
  rw [hf] at s1
  have s2 := Step.ask (h := h) (isEmpty := isEmpty) ⟨put σ.ends true ⟨n + 2, (σ.ends true).waiting ++ [n], (σ.ends true).responses,
      (σ.ends true).fired, (σ.ends true).pending ++ [n], (σ.ends true).state⟩, [(true, ⟨some n, qa⟩)]⟩ false qb _ _
      (e1 false qb)
  let A : End S C := ⟨n + 2, (σ.ends true).waiting ++ [n], (σ.ends true).responses, (σ.ends true).fired,
      (σ.ends true).pending ++ [n], (σ.ends true).state⟩
  let B : End S C := ⟨n + 2, (σ.ends false).waiting ++ [n], (σ.ends false).responses, (σ.ends false).fired,
      (σ.ends false).pending ++ [n], (σ.ends false).state⟩
  let A' : End S C := ⟨n + 2, A.waiting.filter (· ≠ n), dset A.responses n qb, n :: A.fired, A.pending,
      (h true A.state qb).1⟩
  let B' : End S C := ⟨n + 2, B.waiting.filter (· ≠ n), dset B.responses n qa, n :: B.fired, B.pending,
      (h false B.state qa).1⟩
  let A'' : End S C := ⟨n + 2, A'.waiting, dpop A'.responses n, A'.fired, A'.pending.filter (· ≠ n), A'.state⟩
  let B'' : End S C := ⟨n + 2, B'.waiting, dpop B'.responses n, B'.fired, B'.pending.filter (· ≠ n), B'.state⟩
  refine ⟨_, _, ⟨put (put (put σ.ends true A) false B) false B', [(false, ⟨some n, qb⟩)]⟩,
    ⟨put (put (put (put σ.ends true A) false B) false B') true A', []⟩,
    ⟨put (put (put (put (put σ.ends true A) false B) false B') true A') true A'', []⟩,
    ⟨put (put (put (put (put (put σ.ends true A) false B) false B') true A') true A'') false B'', []⟩,
    s1, s2, ?_, ?_, ?_, ?_, rfl, ?_⟩
  · refine Step.quiet (h := h) (isEmpty := isEmpty) _ true ⟨some n, qa⟩ [] [(false, ⟨some n, qb⟩)] B' rfl ?_
    show B.recv (h false) isEmpty ⟨some n, qa⟩ = _
    simp [End.recv, B, B']
  · refine Step.quiet (h := h) (isEmpty := isEmpty) _ false ⟨some n, qb⟩ [] [] A' rfl ?_
    show A.recv (h true) isEmpty ⟨some n, qb⟩ = _
    simp [End.recv, A, A']
  · refine Step.resume (h := h) (isEmpty := isEmpty) _ true n A'' qb ?_ ?_ ?_
    · show n ∈ A'.pending; simp [A', A]
    · show n ∈ A'.fired; simp [A']
    · show A'.resume n = _
      have : dget A'.responses n = some qb := dget_dset_self _ _ _
      simp only [End.resume, this]; rfl
  · refine Step.resume (h := h) (isEmpty := isEmpty) _ false n B'' qa ?_ ?_ ?_
    · show n ∈ B'.pending; simp [B', B]
    · show n ∈ B'.fired; simp [B']
    · show B'.resume n = _
      have : dget B'.responses n = some qa := dget_dset_self _ _ _
      simp only [End.resume, this]; rfl
  · intro s; cases s <;> rfl

/-- A message that keeps being answered. -/
theorem bounce (h : Bool → S → C → S × C) (isEmpty : C → Bool) (P : C → Prop) (id : Option Int)
    (hP : ∀ t st c, P c → P (h t st c).2 ∧ (id = none → isEmpty (h t st c).2 = false))
    (ends : Bool → End S C) (q : C) (hq : P q) (s : Bool) (hw : ∀ t i, id = some i → i ∉ (ends t).waiting) (n : Nat) :
    ∃ σ l m, Run' h isEmpty ⟨ends, [(s, ⟨id, q⟩)]⟩ n σ l ∧ sends l = n ∧ σ.flight = [m] ∧ m.2.id = id ∧ P m.2.content ∧
      ∀ t i, id = some i → i ∉ (σ.ends t).waiting := by
  induction n with
  | zero => exact ⟨_, _, _, .refl, rfl, rfl, rfl, hq, hw⟩
  | succ n ih =>
    obtain ⟨σ, l, ⟨t, ⟨mid, c⟩⟩, hr, hs, hf, hid, hc, hw'⟩ := ih
    simp only at hid hc
    subst hid
    have hrecv : (σ.ends (!t)).recv (h (!t)) isEmpty ⟨mid, c⟩ =
        ({ σ.ends (!t) with state := (h (!t) (σ.ends (!t)).state c).1 },
          some ⟨mid, (h (!t) (σ.ends (!t)).state c).2⟩) := by
      cases mid with
      | none => simp [End.recv, (hP (!t) (σ.ends (!t)).state c hc).2 rfl]
      | some i => simp [End.recv, hw' (!t) i rfl]
    have hst := Step.reply (h := h) (isEmpty := isEmpty) σ t ⟨mid, c⟩ _ [] [] _ hf hrecv
    refine ⟨_, _, _, Run'.step n _ _ _ _ hr hst, ?_, rfl, rfl, (hP _ _ _ hc).1, ?_⟩
    · rw [sends_append, hs]; rfl
    · intro u i hi
      by_cases hu : u = !t
      · subst hu; dsimp only; rw [put_self]; exact hw' _ i hi
      · dsimp only; rw [put_ne _ _ _ _ hu]; exact hw' u i hi

/-- C47 fails for an identifier nobody waits for: it is passed back and forth for ever, whatever the
handlers answer. -/
theorem C47_stray_fails (h : Bool → S → C → S × C) (isEmpty : C → Bool) (ends : Bool → End S C) (i : Int) (q : C) (s : Bool)
    (hw : ∀ t, i ∉ (ends t).waiting) (n : Nat) :
    ∃ σ l m, Run' h isEmpty ⟨ends, [(s, ⟨some i, q⟩)]⟩ n σ l ∧ sends l = n ∧ σ.flight = [m] := by
  obtain ⟨σ, l, m, h1, h2, h3, -⟩ := bounce h isEmpty (fun _ => True) (some i) (fun _ _ _ _ => ⟨trivial, by simp⟩) ends q
    trivial s (fun t j hj => by injection hj with hj; subst hj; exact hw t) n
  exact ⟨σ, l, m, h1, h2, h3⟩

/-- C47 fails for a message without identifier that both ends' handlers always answer, such as a
loopback. -/
theorem C47_loopback_fails (h : Bool → S → C → S × C) (isEmpty : C → Bool) (P : C → Prop)
    (hP : ∀ t st c, P c → P (h t st c).2 ∧ isEmpty (h t st c).2 = false)
    (ends : Bool → End S C) (q : C) (hq : P q) (s : Bool) (n : Nat) :
    ∃ σ l m, Run' h isEmpty ⟨ends, [(s, ⟨none, q⟩)]⟩ n σ l ∧ sends l = n ∧ σ.flight = [m] := by
  obtain ⟨σ, l, m, h1, h2, h3, -⟩ := bounce h isEmpty P none (fun t st c hc => ⟨(hP t st c hc).1, fun _ => (hP t st c hc).2⟩)
    ends q hq s (fun t j hj => by cases hj) n
  exact ⟨σ, l, m, h1, h2, h3⟩

/-- A run: the program asks, the peer doubles the number, the answer is received. -/
example : ∃ σ, Run (S := Unit) (C := Nat) (fun _ _ c => ((), 2 * c)) (fun _ => false)
    (fun s => if s then 1 else 2) (fun _ => ()) σ
    [.asked true 1 21, .sent true ⟨some 1, 21⟩, .answered false 1 21 42, .sent false ⟨some 1, 42⟩,
      .finished true 1 (.reply 42)] := by
  refine ⟨_, .step _ _ _ _ (.step _ _ _ _ (.step _ _ _ _ (.step _ _ _ _ .new (.ask _ true 21 _ _ rfl))
    (.reply _ true ⟨some 1, 21⟩ ⟨some 1, 42⟩ [] [] _ rfl rfl))
    (.quiet _ false ⟨some 1, 42⟩ [] [] _ rfl rfl))
    (.resume _ true 1 _ 42 (by decide +kernel) (by decide +kernel) rfl)⟩

end Verif.Json
