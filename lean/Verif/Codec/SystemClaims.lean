import Verif.Codec.SystemProps

/-!
C73: the theorems about the type system.
-/
namespace Verif.Codec

variable {κ : Type}

theorem content_size (size : κ → Nat) (base : List Name) (s : Sys κ) (hi : Inv base s) (f : Name) (c : Content κ)
    (hf : f ≠ byteOrder) (h : content s f = .ok c) : sizeOf size s f = .ok (c.kinds.map size).sum := by
  unfold content at h
  unfold sizeOf
  cases he : dget s.enums f with
  | some k =>
    rw [he] at h
    cases h
    rcases hi.enums f k he with h' | h'
    · exact absurd h' hf
    · rw [h']; simp [Content.kinds]
  | none =>
    rw [he] at h
    cases hc : dget s.custom f with
    | some d =>
      simp only [hc] at h
      cases h
      have hcm : f ∈ keys s.custom := (mem_keys _ _).mpr (by rw [hc]; rfl)
      cases hp : dget s.prims f with
      | none => simp only [chainSize_flat, Content.kinds]
      | some k =>
        exfalso
        rcases hi.prims f ((mem_keys _ _).mpr (by rw [hp]; rfl)) with h' | h'
        · exact hi.custom f hcm h'
        · have := (mem_keys _ _).mp h'
          rw [he] at this
          cases this
    | none =>
      simp only [hc] at h
      cases hp : dget s.prims f with
      | none => simp only [hp] at h; cases h
      | some k =>
        simp only [hp] at h
        cases h
        simp [Content.kinds]

/-- C73. Adding a field puts the elements of the field's type, as they are now, behind the elements of the
type, `array_length` times but at least once; the size grows accordingly; every other type stays as it is.
`f` and `t` are the types the names given resolve to. -/
theorem C73_add (w : World κ) (size : κ → Nat) (root : List Name) (prims : List (Name × κ))
    (hp : ∀ n ∈ keys prims, ':' ∉ n) (hd : (keys prims).Nodup) (ops : List (Op κ))
    (ct fl ft : Name) (len : Option Int) (exact : Bool) (t f : Name)
    (h : (add w.sr w.valid (run w (Sys.new root prims w.u8) ops) ct fl ft len exact).2 = .ok (t, f))
    (hf : f ≠ byteOrder) :
    let s := run w (Sys.new root prims w.u8) ops
    let s' := (add w.sr w.valid s ct fl ft len exact).1
    let count := len.elim 1 fun n => (max 1 n).toNat
    ∃ chain chain' n elems, dget s.custom t = some chain ∧ dget s'.custom t = some chain' ∧
      sizeOf size s f = .ok n ∧ (elems.map size).sum = n ∧
      (∀ d, dget s.custom f = some d → dget s.prims f = none → elems = d.flatten) ∧
      (∀ k, dget s.prims f = some k → elems = [k]) ∧
      chain'.flatten = chain.flatten ++ (List.replicate count elems).flatten ∧
      chainSize size chain' = chainSize size chain + count * n ∧
      (∀ u, u ≠ t → dget s'.custom u = dget s.custom u) ∧ s'.prims = s.prims ∧ s'.enums = s.enums := by
  intro s s' count
  have hr : Reach (keys prims) s := run_reach w _ _ ops (new_reach root prims w.u8 hp hd)
  obtain ⟨chain, c, h1, h2, _, _, _, h3⟩ := add_ok w.sr w.valid s ct fl ft len exact t f h
  have hs' : s' = { s with custom := dset s.custom t (extend c len chain) } := h3
  refine ⟨chain, extend c len chain, (c.kinds.map size).sum, c.kinds, h1, ?_, content_size size _ s hr.inv f c hf h2, rfl, ?_,
    ?_, ?_, ?_, ?_, ?_, ?_⟩
  · rw [hs']; exact dget_dset_self _ _ _
  · intro d hd' hp'
    unfold content at h2
    cases he : dget s.enums f with
    | some k =>
      rcases hr.inv.enums f k he with h' | h'
      · exact absurd h' hf
      · rw [hp'] at h'; cases h'
    | none =>
      rw [he] at h2
      simp only [hd'] at h2
      cases h2
      rfl
  · intro k hk
    unfold content at h2
    cases he : dget s.enums f with
    | some k' =>
      rw [he] at h2
      cases h2
      rcases hr.inv.enums f k' he with h' | h'
      · exact absurd h' hf
      · rw [hk] at h'; cases h'; rfl
    | none =>
      rw [he] at h2
      cases hc : dget s.custom f with
      | some d =>
        exfalso
        rcases hr.inv.prims f ((mem_keys _ _).mpr (by rw [hk]; rfl)) with h' | h'
        · exact hr.inv.custom f ((mem_keys _ _).mpr (by rw [hc]; rfl)) h'
        · have := (mem_keys _ _).mp h'
          rw [he] at this
          cases this
      | none =>
        simp only [hc, hk] at h2
        cases h2
        rfl
  · rw [flat_extend, copies_eq]
  · rw [chainSize_extend, copies_eq]
  · intro u hu
    rw [hs']
    exact dget_dset_ne _ _ _ _ (fun e => hu e.symm)
  · rw [hs']
  · rw [hs']

/-! ### Sizes over histories -/

/-- What a successful call does: it creates a type, or adds a field of type `f` to `t`. -/
inductive Ev where
  | touch (n : Name)
  | add (t : Name) (len : Option Int) (f : Name)
  deriving DecidableEq

def Ev.target : Ev → Name
  | .touch n => n
  | .add t _ _ => t

/-- The event of a call. -/
def event (w : World κ) (s : Sys κ) (o : Op κ) : List Ev :=
  match o, (step w s o).2 with
  | .register name ns, .ok _ => [.touch (full (s.root ++ ns) name)]
  | .enum name ns _, .ok _ => [.touch (full (s.root ++ ns) name)]
  | .add _ _ _ len _, .ok (some (t, f)) => [.add t len f]
  | _, _ => []

def events (w : World κ) (s : Sys κ) : List (Op κ) → List Ev
  | [] => []
  | o :: ops => event w s o ++ events w (step w s o).1 ops

/-- Types are complete before they are used: a type gets no field and is not created again once another
type has a field of it, and no type is created twice. (`ByteOrder` in the global namespace is left out.) -/
def Settled (evs : List Ev) : Prop :=
  evs.Pairwise (fun e e' => (∀ t len f, e = .add t len f → e'.target ≠ f) ∧ (∀ n, e' = .touch n → e.target ≠ n))
  ∧ ∀ t len f, .add t len f ∈ evs → f ≠ t ∧ f ≠ byteOrder

/-- The size of a type in a state, 0 if there is none. -/
def sz (size : κ → Nat) (s : Sys κ) (f : Name) : Nat := (sizeOf size s f).toOption.getD 0

/-- The sum of the sizes of the fields of `t`. -/
def fieldsSize (size : κ → Nat) (s : Sys κ) (t : Name) : List Ev → Nat
  | [] => 0
  | .add t' len f :: evs => (if t' = t then (len.elim 1 fun n => (max 1 n).toNat) * sz size s f else 0) + fieldsSize size s t evs
  | .touch _ :: evs => fieldsSize size s t evs

theorem fieldsSize_append (size : κ → Nat) (s : Sys κ) (t : Name) (a b : List Ev) :
    fieldsSize size s t (a ++ b) = fieldsSize size s t a + fieldsSize size s t b := by
  induction a with
  | nil => simp [fieldsSize]
  | cons e a ih =>
    cases e with
    | touch n => simpa [fieldsSize] using ih
    | add t' len f => simp only [List.cons_append, fieldsSize, ih]; omega

theorem fieldsSize_congr (size : κ → Nat) (s s' : Sys κ) (t : Name) (evs : List Ev)
    (h : ∀ t' len f, .add t' len f ∈ evs → sz size s' f = sz size s f) :
    fieldsSize size s' t evs = fieldsSize size s t evs := by
  induction evs with
  | nil => rfl
  | cons e evs ih =>
    have ih' := ih (fun t' len f hm => h t' len f (List.mem_cons_of_mem _ hm))
    cases e with
    | touch n => exact ih'
    | add t' len f => simp only [fieldsSize, ih', h t' len f List.mem_cons_self]

theorem fieldsSize_none (size : κ → Nat) (s : Sys κ) (t : Name) (evs : List Ev)
    (h : ∀ e ∈ evs, e.target ≠ t) : fieldsSize size s t evs = 0 := by
  induction evs with
  | nil => rfl
  | cons e evs ih =>
    have ih' := ih (fun e' hm => h e' (List.mem_cons_of_mem _ hm))
    have he := h e List.mem_cons_self
    cases e with
    | touch n => exact ih'
    | add t' len f => simp only [fieldsSize, ih']; rw [if_neg (show ¬ t' = t from he)]

/-- The three things a call can do. -/
theorem step_cases (w : World κ) (size : κ → Nat) (base : List Name) (s : Sys κ) (o : Op κ) (hr : Reach base s) :
    (event w s o = [] ∧ (step w s o).1.custom = s.custom ∧ (step w s o).1.prims = s.prims) ∨
    (∃ n, event w s o = [.touch n] ∧
      (∀ f, f ≠ n → sz size (step w s o).1 f = sz size s f ∧ dget (step w s o).1.custom f = dget s.custom f) ∧
      (dget (step w s o).1.custom n = dget s.custom n ∨ dget (step w s o).1.custom n = some [[]])) ∨
    (∃ t len f chain c, event w s o = [.add t len f] ∧ dget s.custom t = some chain ∧ content s f = .ok c ∧
      (step w s o).1 = { s with custom := dset s.custom t (extend c len chain) }) := by
  cases o with
  | register name ns =>
    have htb : (withByteOrder w.u8 s).tracked.Nodup := by rw [withByteOrder_tracked]; exact hr.inv.tracked
    cases hn : newName w.sr (withByteOrder w.u8 s) name ns with
    | error e =>
      left
      have h1 : register w.sr w.u8 s name ns = (withByteOrder w.u8 s, .error e) := by rw [register, hn]
      simp only [event, step, h1]
      exact ⟨rfl, withByteOrder_custom _ _, withByteOrder_prims _ _⟩
    | ok r =>
      obtain ⟨n, s'⟩ := r
      obtain ⟨e1, rfl, _⟩ := newName_ok _ _ _ _ _ _ htb hn
      right; left
      have h1 : register w.sr w.u8 s name ns =
          ({ track (withByteOrder w.u8 s) n with custom := dset (track (withByteOrder w.u8 s) n).custom n [[]] }, .ok ()) := by
        rw [register, hn]
      have hc : (track (withByteOrder w.u8 s) n).custom = s.custom := by rw [track_custom, withByteOrder_custom]
      have hpr : (track (withByteOrder w.u8 s) n).prims = s.prims := by rw [track_prims, withByteOrder_prims]
      refine ⟨n, ?_, ?_, ?_⟩
      · simp only [event, step, h1, e1, withByteOrder_root]; rfl
      · intro f hf
        simp only [step, h1]
        have : dget (dset s.custom n [[]]) f = dget s.custom f := dget_dset_ne _ _ _ _ (fun e => hf e.symm)
        refine ⟨?_, by rw [hc]; exact this⟩
        simp only [sz, sizeOf, hc, hpr, this]
      · right
        simp only [step, h1]
        exact dget_dset_self _ _ _
  | enum name ns k =>
    cases hn : newName w.sr s name ns with
    | error e =>
      left
      have h1 : enum w.sr w.accepts s name ns k = (s, .error e) := by rw [enum, hn]
      simp only [event, step, h1]
      exact ⟨rfl, by trivial, by trivial⟩
    | ok r =>
      obtain ⟨n, s'⟩ := r
      obtain ⟨e1, rfl, _⟩ := newName_ok _ _ _ _ _ _ hr.inv.tracked hn
      by_cases hc : n ∈ keys (track s n).enums ∨ w.accepts n = false
      · left
        have h1 : enum w.sr w.accepts s name ns k = (track s n, .error .assertion) := by
          rw [enum, hn]; dsimp only; rw [if_pos hc]
        simp only [event, step, h1]
        exact ⟨rfl, track_custom _ _, track_prims _ _⟩
      · by_cases hp : n ∈ keys (track s n).prims
        · left
          have h1 : enum w.sr w.accepts s name ns k =
              ({ track s n with enums := (track s n).enums ++ [(n, k)] }, .error .assertion) := by
            rw [enum, hn]; dsimp only; rw [if_neg hc, if_pos hp]
          simp only [event, step, h1]
          exact ⟨rfl, track_custom _ _, track_prims _ _⟩
        · right; left
          have h1 : enum w.sr w.accepts s name ns k =
              ({ track s n with enums := (track s n).enums ++ [(n, k)], prims := (track s n).prims ++ [(n, k)] }, .ok ()) := by
            rw [enum, hn]; dsimp only; rw [if_neg hc, if_neg hp]
          refine ⟨n, ?_, ?_, ?_⟩
          · simp only [event, step, h1, e1]; rfl
          · intro f hf
            simp only [step, h1, track_custom]
            refine ⟨?_, by trivial⟩
            have : dget (s.prims ++ [(n, k)]) f = dget s.prims f := by
              rw [dget_append, dget_cons, if_neg (fun e => hf e.symm), dget_nil]
              cases dget s.prims f <;> rfl
            simp only [sz, sizeOf, track_prims, this]
          · left
            simp only [step, h1, track_custom]
  | add ct fl ft len ex =>
    cases hres : (add w.sr w.valid s ct fl ft len ex).2 with
    | error e =>
      left
      have h1 := add_error _ _ _ _ _ _ _ _ e hres
      simp only [event, step, hres, h1]
      exact ⟨rfl, by trivial, by trivial⟩
    | ok r =>
      obtain ⟨t, f⟩ := r
      obtain ⟨chain, c, h1, h2, _, _, _, h3⟩ := add_ok _ _ _ _ _ _ _ _ t f hres
      right; right
      exact ⟨t, len, f, chain, c, by simp only [event, step, hres]; rfl, h1, h2, h3⟩

theorem sz_of_custom (size : κ → Nat) (s s' : Sys κ) (f : Name) (hp : s'.prims = s.prims)
    (hc : dget s'.custom f = dget s.custom f) : sz size s' f = sz size s f := by
  simp only [sz, sizeOf, hp, hc]

theorem step_sizes (w : World κ) (size : κ → Nat) (base : List Name) (s : Sys κ) (o : Op κ) (hr : Reach base s)
    (evs : List Ev) (hs : Settled (evs ++ event w s o))
    (hP : ∀ t chain, dget s.custom t = some chain → chainSize size chain = fieldsSize size s t evs) :
    ∀ t chain, dget (step w s o).1.custom t = some chain →
      chainSize size chain = fieldsSize size (step w s o).1 t (evs ++ event w s o) := by
  obtain ⟨hpw, hne⟩ := hs
  rw [List.pairwise_append] at hpw
  obtain ⟨_, _, hcross⟩ := hpw
  rcases step_cases w size base s o hr with ⟨he, hc, hp⟩ | ⟨n, he, hf, hn⟩ | ⟨t0, len, f, chain0, c, he, h1, h2, h3⟩
  · intro t chain ht
    rw [he, List.append_nil]
    rw [hc] at ht
    rw [hP t chain ht]
    symm
    exact fieldsSize_congr _ _ _ _ _ (fun t' len f _ => sz_of_custom _ _ _ _ hp (by rw [hc]))
  · intro t chain ht
    rw [he] at hcross ⊢
    rw [fieldsSize_append]
    have hz : fieldsSize size (step w s o).1 t [.touch n] = 0 := rfl
    rw [hz, Nat.add_zero]
    have hcong : fieldsSize size (step w s o).1 t evs = fieldsSize size s t evs := by
      apply fieldsSize_congr
      intro t' len f hm
      refine (hf f ?_).1
      exact fun e => (hcross _ hm _ List.mem_cons_self).1 t' len f rfl e.symm
    rw [hcong]
    by_cases htn : t = n
    · subst htn
      rcases hn with hn | hn
      · rw [hn] at ht; exact hP t chain ht
      · rw [hn] at ht
        cases ht
        rw [fieldsSize_none]
        · rfl
        · intro e hm
          exact (hcross _ hm _ List.mem_cons_self).2 t rfl
    · rw [(hf t htn).2] at ht
      exact hP t chain ht
  · rw [he] at hcross hne ⊢
    have hff : f ≠ t0 ∧ f ≠ byteOrder := hne t0 len f (by simp)
    have hsz : ∀ x, x ≠ t0 → sz size (step w s o).1 x = sz size s x := by
      intro x hx
      rw [h3]
      exact sz_of_custom _ _ _ _ rfl (dget_dset_ne _ _ _ _ (fun e => hx e.symm))
    have hcong : ∀ t, fieldsSize size (step w s o).1 t evs = fieldsSize size s t evs := by
      intro t
      apply fieldsSize_congr
      intro t' len' f' hm
      apply hsz
      exact fun e => (hcross _ hm _ List.mem_cons_self).1 t' len' f' rfl e.symm
    intro t chain ht
    rw [fieldsSize_append, hcong]
    simp only [fieldsSize, Nat.add_zero]
    rw [h3] at ht
    dsimp only at ht
    by_cases htt : t0 = t
    · subst htt
      rw [dget_dset_self] at ht
      cases ht
      rw [if_pos rfl, chainSize_extend, hP t0 chain0 h1, hsz f hff.1, copies_eq]
      have := content_size size base s hr.inv f c hff.2 h2
      simp only [sz, this]
      rfl
    · rw [dget_dset_ne _ _ _ _ htt] at ht
      rw [if_neg htt, Nat.add_zero]
      exact hP t chain ht

theorem run_sizes (w : World κ) (size : κ → Nat) (base : List Name) (s : Sys κ) (ops : List (Op κ))
    (hr : Reach base s) (evs : List Ev) (hs : Settled (evs ++ events w s ops))
    (hP : ∀ t chain, dget s.custom t = some chain → chainSize size chain = fieldsSize size s t evs) :
    ∀ t chain, dget (run w s ops).custom t = some chain →
      chainSize size chain = fieldsSize size (run w s ops) t (evs ++ events w s ops) := by
  induction ops generalizing s evs with
  | nil => simpa [run, events] using hP
  | cons o ops ih =>
    rw [events, ← List.append_assoc] at hs ⊢
    have hs1 : Settled (evs ++ event w s o) := by
      obtain ⟨a, b⟩ := hs
      rw [List.pairwise_append] at a
      exact ⟨a.1, fun t len f hm => b t len f (List.mem_append_left _ hm)⟩
    exact ih (step w s o).1 (step_reach w base s o hr) (evs ++ event w s o) hs (step_sizes w size base s o hr evs hs1 hP)

/-- C73. If types are complete before they are used, the size of every type is in the end the sum, over the
fields added to it, of the number of elements times the size the field's type has in the end. -/
theorem C73_sizes_partial (w : World κ) (size : κ → Nat) (root : List Name) (prims : List (Name × κ))
    (hp : ∀ n ∈ keys prims, ':' ∉ n) (hd : (keys prims).Nodup) (ops : List (Op κ))
    (hs : Settled (events w (Sys.new root prims w.u8) ops)) (t : Name) (chain : Chain κ)
    (ht : dget (run w (Sys.new root prims w.u8) ops).custom t = some chain) :
    chainSize size chain =
      fieldsSize size (run w (Sys.new root prims w.u8) ops) t (events w (Sys.new root prims w.u8) ops) := by
  have := run_sizes w size (keys prims) _ ops (new_reach root prims w.u8 hp hd) [] (by simpa using hs)
    (by intro t chain h; simp [Sys.new, dget_nil] at h) t chain ht
  simpa using this

/-- C73 in full fails: a type keeps the elements its field had when it was added. Whatever is added to the
field's type afterwards, the size of the composed type stays. -/
theorem C73_growth_fails (w : World κ) (size : κ → Nat) (s : Sys κ) (ct fl ft : Name) (len : Option Int) (exact : Bool)
    (inner f : Name) (h : (add w.sr w.valid s ct fl ft len exact).2 = .ok (inner, f)) (outer : Name)
    (ho : outer ≠ inner) :
    dget (add w.sr w.valid s ct fl ft len exact).1.custom outer = dget s.custom outer ∧
    ∃ c c', dget s.custom inner = some c ∧ dget (add w.sr w.valid s ct fl ft len exact).1.custom inner = some c' ∧
      ∃ d, content s f = .ok d ∧ chainSize size c' = chainSize size c + copies len * (d.kinds.map size).sum := by
  obtain ⟨chain, c, h1, h2, _, _, _, h3⟩ := add_ok w.sr w.valid s ct fl ft len exact inner f h
  rw [h3]
  refine ⟨dget_dset_ne _ _ _ _ (fun e => ho e.symm), chain, extend c len chain, h1, dget_dset_self _ _ _, c, h2, ?_⟩
  exact chainSize_extend size c len chain

/-! ### Names -/

theorem step_root (w : World κ) (s : Sys κ) (o : Op κ) : (step w s o).1.root = s.root := by
  cases o with
  | register name ns =>
    simp only [step, register, newName]
    cases find w.sr (withByteOrder w.u8 s) name ns true with
    | error e => exact withByteOrder_root _ _
    | ok r =>
      dsimp only
      split
      · exact withByteOrder_root _ _
      · rename_i h
        split at h
        · cases h
        · cases h
          simp only [track_root, withByteOrder_root]
  | enum name ns k =>
    simp only [step, enum, newName]
    cases find w.sr s name ns true with
    | error e => rfl
    | ok r =>
      dsimp only
      split
      · rfl
      · rename_i h
        split at h
        · cases h
        · cases h
          split
          · exact track_root _ _
          · split <;> exact track_root _ _
  | add ct fl ft len ex =>
    simp only [step]
    cases hr : (add w.sr w.valid s ct fl ft len ex).2 with
    | error e => rw [add_error _ _ _ _ _ _ _ _ e hr]
    | ok r =>
      obtain ⟨t, f⟩ := r
      obtain ⟨chain, c, _, _, _, _, _, h2⟩ := add_ok _ _ _ _ _ _ _ _ t f hr
      rw [h2]

theorem step_custom (w : World κ) (base : List Name) (s : Sys κ) (o : Op κ) (hr : Reach base s) (n : Name)
    (h : n ∈ keys s.custom) : n ∈ keys (step w s o).1.custom := by
  rw [mem_keys] at h ⊢
  rcases step_cases w (fun _ => 0) base s o hr with ⟨_, hc, _⟩ | ⟨m, _, hf, hm⟩ | ⟨t, len, f, chain, c, _, _, _, h3⟩
  · rw [hc]; exact h
  · by_cases e : n = m
    · subst e
      rcases hm with hm | hm
      · rw [hm]; exact h
      · rw [hm]; rfl
    · rw [(hf n e).2]; exact h
  · rw [h3]
    dsimp only
    rw [dget_dset]
    split
    · rfl
    · exact h

theorem run_custom (w : World κ) (base : List Name) (s : Sys κ) (ops : List (Op κ)) (hr : Reach base s) (n : Name)
    (h : n ∈ keys s.custom) : n ∈ keys (run w s ops).custom ∧ (run w s ops).root = s.root := by
  induction ops generalizing s with
  | nil => exact ⟨h, rfl⟩
  | cons o ops ih =>
    obtain ⟨a, b⟩ := ih _ (step_reach w base s o hr) (step_custom w base s o hr n h)
    exact ⟨a, by rw [show run w s (o :: ops) = run w (step w s o).1 ops from rfl, b, step_root]⟩

theorem register_ok (sr : Search) (u8 : κ) (s : Sys κ) (name : Name) (ns : List Name) (ht : s.tracked.Nodup)
    (h : (register sr u8 s name ns).2 = .ok ()) :
    (register sr u8 s name ns).1.custom = dset s.custom (full (s.root ++ ns) name) [[]] ∧
    (register sr u8 s name ns).1.prims = s.prims ∧ (register sr u8 s name ns).1.root = s.root := by
  unfold register at h ⊢
  cases hn : newName sr (withByteOrder u8 s) name ns with
  | error e => simp only [hn] at h; cases h
  | ok r =>
    obtain ⟨n, s'⟩ := r
    obtain ⟨e1, rfl, _⟩ := newName_ok _ _ _ _ _ _ (by rw [withByteOrder_tracked]; exact ht) hn
    rw [withByteOrder_root] at e1
    simp only [track_custom, withByteOrder_custom, track_prims, withByteOrder_prims, track_root, withByteOrder_root, e1]
    trivial

/-- C73. A registered type is found under its name for good, exactly or not, as long as the name proper is
not the name of a primitive (or the full name of an enumeration). -/
theorem C73_found_partial (w : World κ) (root : List Name) (prims : List (Name × κ))
    (hp : ∀ n ∈ keys prims, ':' ∉ n) (hd : (keys prims).Nodup) (ops ops' : List (Op κ)) (name : Name)
    (ns : List Name) (exact : Bool)
    (h : (register w.sr w.u8 (run w (Sys.new root prims w.u8) ops) name ns).2 = .ok ())
    (hn : name ∉ keys (run w (register w.sr w.u8 (run w (Sys.new root prims w.u8) ops) name ns).1 ops').prims) :
    let s := run w (register w.sr w.u8 (run w (Sys.new root prims w.u8) ops) name ns).1 ops'
    find w.sr s name ns exact = .ok (some (full (s.root ++ ns) name)) := by
  intro s
  have hr : Reach (keys prims) (run w (Sys.new root prims w.u8) ops) :=
    run_reach w _ _ ops (new_reach root prims w.u8 hp hd)
  have hr' : Reach (keys prims) (register w.sr w.u8 (run w (Sys.new root prims w.u8) ops) name ns).1 :=
    step_reach w _ _ (.register name ns) hr
  obtain ⟨h1, _, h3⟩ := register_ok w.sr w.u8 _ name ns hr.inv.tracked h
  have hm : full ((run w (Sys.new root prims w.u8) ops).root ++ ns) name ∈
      keys (register w.sr w.u8 (run w (Sys.new root prims w.u8) ops) name ns).1.custom := by
    rw [h1, mem_keys_dset]; exact .inl rfl
  obtain ⟨a, b⟩ := run_custom w (keys prims) _ ops' hr' _ hm
  apply find_custom
  · have : s.root = (run w (Sys.new root prims w.u8) ops).root := by
      show (run w _ ops').root = _
      rw [b, h3]
    rw [this]
    exact a
  · exact hn

/-- C73. A name is given out once: when a type, an enumeration or a primitive has the full name, registering
it again is refused and leaves every type as it was. -/
theorem C73_unique_partial (w : World κ) (root : List Name) (prims : List (Name × κ))
    (hp : ∀ n ∈ keys prims, ':' ∉ n) (hd : (keys prims).Nodup) (ops : List (Op κ)) (name : Name) (ns : List Name)
    (k : κ) (hn : name ∉ keys (run w (Sys.new root prims w.u8) ops).prims)
    (hm : full ((run w (Sys.new root prims w.u8) ops).root ++ ns) name ∈
      keys (run w (Sys.new root prims w.u8) ops).custom ++ keys (run w (Sys.new root prims w.u8) ops).prims) :
    let s := run w (Sys.new root prims w.u8) ops
    (register w.sr w.u8 s name ns).2 = .error .assertion ∧ (register w.sr w.u8 s name ns).1.custom = s.custom ∧
    (enum w.sr w.accepts s name ns k).2 = .error .assertion ∧ (enum w.sr w.accepts s name ns k).1 = s := by
  intro s
  have hr : Reach (keys prims) s := run_reach w _ _ ops (new_reach root prims w.u8 hp hd)
  have hr1 := withByteOrder_inv _ w.u8 s hr.inv
  have hm' : full (s.root ++ ns) name ∈ s.tracked := by
    rcases List.mem_append.mp hm with h | h
    · exact hr.inv.custom_tracked _ h
    · exact hr.inv.prims_tracked _ h
  have e1 : newName w.sr (withByteOrder w.u8 s) name ns = .error .assertion := by
    rw [newName, find_tracked w.sr _ name ns hr1.tracked
      (by rw [withByteOrder_tracked, withByteOrder_root]; exact hm') (by rw [withByteOrder_prims]; exact hn)]
    simp
  have e2 : newName w.sr s name ns = .error .assertion := by
    rw [newName, find_tracked w.sr _ name ns hr.inv.tracked hm' hn]
    simp
  rw [register, e1, enum, e2]
  exact ⟨rfl, withByteOrder_custom _ _, rfl, rfl⟩

/-- C73 in full fails: below a root namespace a type may take the name of a primitive. Registering it
succeeds as often as one likes, each time replacing the type by an empty one, and no name in any namespace
finds the type. -/
theorem C73_primitive_name_fails (w : World κ) (base : List Name) (s : Sys κ) (hr : Reach base s) (name : Name)
    (hn : name ∈ keys s.prims) (hc : ':' ∉ name) (hroot : s.root ≠ []) (hnp : full s.root name ∉ keys s.prims) :
    let s' := (register w.sr w.u8 s name []).1
    (register w.sr w.u8 s name []).2 = .ok () ∧ dget s'.custom (full s.root name) = some [[]] ∧
    ∀ nm ns, find w.sr s' nm ns true ≠ .ok (some (full s.root name)) := by
  have hne : full (s.root ++ []) name ≠ name := by
    intro e
    apply hc
    rw [← e]
    exact full_colon _ _ (by simpa using hroot)
  have e1 : newName w.sr (withByteOrder w.u8 s) name [] =
      .ok (full (s.root ++ []) name, track (withByteOrder w.u8 s) (full (s.root ++ []) name)) := by
    rw [newName, find, if_pos (by rw [withByteOrder_prims]; exact hn), withByteOrder_root]
    have : ¬ (some name = some (full (s.root ++ []) name)) := fun e => hne (Option.some.inj e).symm
    simp only [if_neg this]
  have hok : (register w.sr w.u8 s name []).2 = .ok () := by rw [register, e1]
  obtain ⟨h1, h2, h3⟩ := register_ok w.sr w.u8 s name [] hr.inv.tracked hok
  have hr' : Reach base (register w.sr w.u8 s name []).1 := step_reach w base s (.register name []) hr
  refine ⟨hok, ?_, ?_⟩
  · rw [h1, List.append_nil]; exact dget_dset_self _ _ _
  · intro nm ns hf
    rcases find_exact _ _ _ _ _ hr'.inv.tracked hf with ⟨e, hm⟩ | ⟨hm, e, _⟩
    · rw [h2, ← e] at hm
      exact hnp hm
    · rw [h3, full_append] at e
      have e' := full_inj _ _ _ e
      cases ns with
      | nil =>
        have : nm = name := e'.symm
        subst this
        rw [h2] at hm
        exact hm hn
      | cons x ns =>
        apply hc
        rw [e']
        exact full_colon _ _ (by simp)

/-- C73 in full fails: an enumeration registered in the global namespace hides the types of that name in
every namespace. -/
theorem C73_hidden_fails (w : World κ) (s : Sys κ) (name : Name) (k : κ) (hroot : s.root = [])
    (h : (enum w.sr w.accepts s name [] k).2 = .ok ()) (ht : s.tracked.Nodup) (ns : List Name) (exact : Bool) :
    find w.sr (enum w.sr w.accepts s name [] k).1 name ns exact = .ok (some name) := by
  unfold enum at h ⊢
  cases hn : newName w.sr s name [] with
  | error e => simp only [hn] at h; cases h
  | ok r =>
    obtain ⟨n, s'⟩ := r
    obtain ⟨e1, rfl, _⟩ := newName_ok _ _ _ _ _ _ ht hn
    rw [hroot] at e1
    have e1' : n = name := e1
    subst e1'
    simp only [hn] at h ⊢
    by_cases hc : n ∈ keys (track s n).enums ∨ w.accepts n = false
    · rw [if_pos hc] at h; cases h
    · rw [if_neg hc] at h ⊢
      by_cases hp : n ∈ keys (track s n).prims
      · rw [if_pos hp] at h; cases h
      · rw [if_neg hp]
        rw [find, if_pos]
        simp [keys]

/-- C73 in full fails: an enumeration the registry refuses keeps its name. It is found, has no size, and
the name cannot be registered any more. -/
theorem C73_refused_fails (w : World κ) (size : κ → Nat) (base : List Name) (s : Sys κ) (hr : Reach base s)
    (name : Name) (ns : List Name) (k : κ) (hn : name ∉ keys s.prims) (hm : full (s.root ++ ns) name ∉ s.tracked)
    (ha : w.accepts (full (s.root ++ ns) name) = false) (hne : full (s.root ++ ns) name ≠ []) :
    let s' := (enum w.sr w.accepts s name ns k).1
    (enum w.sr w.accepts s name ns k).2 = .error .assertion ∧
    (register w.sr w.u8 s' name ns).2 = .error .assertion ∧ sizeNamed w.sr size s' name ns true = .error .key := by
  have hcm : full (s.root ++ ns) name ∉ keys s.custom := fun h => hm (hr.inv.custom_tracked _ h)
  have hpm : full (s.root ++ ns) name ∉ keys s.prims := fun h => hm (hr.inv.prims_tracked _ h)
  have hsr : full (s.root ++ ns) name ∉ w.sr.search s.tracked (s.root ++ ns) name := fun h => hm (w.sr.sub _ _ _ _ h)
  have hfind : find w.sr s name ns true = .ok none := by
    rw [find, if_neg hn, if_neg hcm]
    have : (w.sr.search s.tracked (s.root ++ ns) name).filter (fun x => !true || x == full (s.root ++ ns) name) = [] := by
      apply List.filter_eq_nil_iff.mpr
      intro y hy
      have : y ≠ full (s.root ++ ns) name := fun e => hsr (e ▸ hy)
      simpa using this
    rw [this]
  have hnew : newName w.sr s name ns =
      .ok (full (s.root ++ ns) name, track s (full (s.root ++ ns) name)) := by
    rw [newName, hfind]; simp
  have hen : enum w.sr w.accepts s name ns k = (track s (full (s.root ++ ns) name), .error .assertion) := by
    rw [enum, hnew]
    dsimp only
    rw [if_pos (.inr ha)]
  simp only [hen]
  refine ⟨by trivial, ?_, ?_⟩
  · have hti := withByteOrder_inv base w.u8 _ (track_inv base s (full (s.root ++ ns) name) hr.inv)
    have := find_tracked w.sr (withByteOrder w.u8 (track s (full (s.root ++ ns) name))) name ns hti.tracked
      (by rw [withByteOrder_root, track_root, withByteOrder_tracked]; exact (mem_track _ _ _).mpr (.inr rfl))
      (by rw [withByteOrder_prims, track_prims]; exact hn)
    rw [register, newName, this]
    simp
  · have := find_tracked w.sr (track s (full (s.root ++ ns) name)) name ns (track_nodup _ _ hr.inv.tracked)
      (by rw [track_root]; exact (mem_track _ _ _).mpr (.inr rfl)) (by rw [track_prims]; exact hn)
    rw [track_root] at this
    have hsome : findStrict w.sr (track s (full (s.root ++ ns) name)) name ns true = .ok (full (s.root ++ ns) name) := by
      rw [findStrict, this]
      cases hx : full (s.root ++ ns) name with
      | nil => exact absurd hx hne
      | cons c x => rfl
    rw [sizeNamed, hsome]
    have n1 : dget s.prims (full (s.root ++ ns) name) = none := by
      cases hd : dget s.prims (full (s.root ++ ns) name) with
      | none => rfl
      | some v => exact absurd ((mem_keys _ _).mpr (by rw [hd]; rfl)) hpm
    have n2 : dget s.custom (full (s.root ++ ns) name) = none := by
      cases hd : dget s.custom (full (s.root ++ ns) name) with
      | none => rfl
      | some v => exact absurd ((mem_keys _ _).mpr (by rw [hd]; rfl)) hcm
    simp only [sizeOf, track_prims, track_custom, n1, n2]

theorem byteOrder_mem (u8 : κ) (s : Sys κ) : byteOrder ∈ keys (withByteOrder u8 s).enums := by
  unfold withByteOrder
  by_cases h : byteOrder ∈ keys s.enums
  · rw [if_pos h]; exact h
  · rw [if_neg h]; simp [keys]

/-- C73 in full fails: a type `ByteOrder` registered in the global namespace is not what a field of type
`ByteOrder` holds; that is the enumeration each protocol adds to the registry, whatever fields are added
to the type. -/
theorem C73_byteOrder_fails (w : World κ) (s : Sys κ) (ns : List Name) (ht : s.tracked.Nodup)
    (hb : full (s.root ++ ns) byteOrder = byteOrder) (h : (register w.sr w.u8 s byteOrder ns).2 = .ok ()) :
    dget (register w.sr w.u8 s byteOrder ns).1.custom byteOrder = some [[]] ∧
    ∃ k, content (register w.sr w.u8 s byteOrder ns).1 byteOrder = .ok (.prim k) := by
  obtain ⟨h1, _, _⟩ := register_ok w.sr w.u8 s byteOrder ns ht h
  refine ⟨by rw [h1, hb]; exact dget_dset_self _ _ _, ?_⟩
  have hm : byteOrder ∈ keys (register w.sr w.u8 s byteOrder ns).1.enums := by
    unfold register at h ⊢
    cases hn : newName w.sr (withByteOrder w.u8 s) byteOrder ns with
    | error e => simp only [hn] at h; cases h
    | ok r =>
      obtain ⟨n, s'⟩ := r
      obtain ⟨_, rfl, _⟩ := newName_ok _ _ _ _ _ _ (by rw [withByteOrder_tracked]; exact ht) hn
      simp only [track_enums]
      exact byteOrder_mem _ _
  rw [mem_keys] at hm
  obtain ⟨k, hk⟩ := Option.isSome_iff_exists.mp hm
  exact ⟨k, by rw [content, hk]⟩

/-! ### A concrete system -/

theorem suffix_full (st : List Name) (n : Name) : n <:+ full st n := by
  induction st with
  | nil => exact List.suffix_refl _
  | cons x st ih => exact ih.trans ⟨x ++ [':', ':'], by simp [full]⟩

/-- A search that finds the names ending in the pattern. -/
def suffixSearch : Search where
  search T _ p := T.filter (fun x => p.isSuffixOf x)
  sub T st p x h := (List.mem_filter.mp h).1
  finds T st p h := List.mem_filter.mpr ⟨h, by simpa using suffix_full st p⟩
  nodup T st p h := h.filter _

def caseWorld : World Nat := ⟨suffixSearch, fun n => n != "test::Bad".toList, fun n => n != [], 1⟩
def caseSys : Sys Nat := Sys.new ["test".toList] [("uint8".toList, 1), ("uint32".toList, 4)] 1
def caseOps : List (Op Nat) :=
  [.enum "E".toList [] 2, .register "Inner".toList [], .add "Inner".toList "a".toList "E".toList none true,
   .add "Inner".toList "b".toList "uint32".toList (some 3) true, .register "Outer".toList [],
   .add "Outer".toList "x".toList "Inner".toList (some 2) true, .add "Outer".toList "y".toList "uint8".toList (some 0) true]

/-- Cases: the types `Inner` (14 bytes) and `Outer` (two of them and a byte; a length of 0 counts as 1), with
the events, which are settled; `Inner` grown afterwards; a type named like a primitive; a refused
enumeration. -/
theorem C73_cases :
    let s := run caseWorld caseSys caseOps
    sizeNamed suffixSearch id s "Inner".toList [] true = .ok 14 ∧
    sizeNamed suffixSearch id s "Outer".toList [] true = .ok 29 ∧
    dget s.custom "test::Outer".toList = some [[], [2, 4, 4, 4], [2, 4, 4, 4, 1]] ∧
    sizeNamed suffixSearch id (run caseWorld s [.add "Inner".toList "c".toList "uint8".toList none true])
      "Outer".toList [] true = .ok 29 ∧
    (let t := run caseWorld s [.register "uint8".toList []]
     sizeNamed suffixSearch id t "uint8".toList [] true = .ok 1 ∧
     dget t.custom "test::uint8".toList = some [[]] ∧ (step caseWorld t (.register "uint8".toList [])).2 = .ok none) ∧
    (let t := run caseWorld s [.enum "Bad".toList [] 1]
     sizeNamed suffixSearch id t "Bad".toList [] true = .error .key) ∧
    resolveName ["Test1Asdf".toList, "Test1".toList] = .ok "Test1".toList := by
  decide +kernel

/-- The history above meets the hypotheses of `C73_sizes_partial`. -/
theorem C73_cases_settled : Settled (events caseWorld caseSys caseOps) := by
  have h : events caseWorld caseSys caseOps =
      [.touch "test::E".toList, .touch "test::Inner".toList, .add "test::Inner".toList none "test::E".toList,
       .add "test::Inner".toList (some 3) "uint32".toList, .touch "test::Outer".toList,
       .add "test::Outer".toList (some 2) "test::Inner".toList, .add "test::Outer".toList (some 0) "uint8".toList] := by
    decide +kernel
  rw [h]
  constructor
  · simp [List.pairwise_cons, Ev.target]
  · intro t len f hm
    simp at hm
    rcases hm with ⟨rfl, _, rfl⟩ | ⟨rfl, _, rfl⟩ | ⟨rfl, _, rfl⟩ | ⟨rfl, _, rfl⟩ <;> decide

end Verif.Codec
