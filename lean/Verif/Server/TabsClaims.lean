import Verif.Server.TabsRun
import Batteries.Tactic.Init
/-!
C69: the theorems about live channel values in browser tabs.
-/
set_option linter.unusedSectionVars false

namespace Verif.Tabs

variable {R V : Type} [DecidableEq R] [DecidableEq V]

/-- The environment at the start can be shown, as values that are `ok`. -/
def StartFit (E : Env R V) (ok : V → Prop) (raw : Nat → R) : Prop := ∀ p, Fits E ok p (raw p)

theorem StartFit.readable {E : Env R V} {ok : V → Prop} {raw : Nat → R} (h : StartFit E ok raw) :
    Readable E ok (start raw : World R V) := fun n hn => h (E.prim n) n hn rfl

/-! ### The browser is up to date -/

/-- What holds between a browser that follows the strict protocol and the server. -/
structure Sync (E : Env R V) (st : Nat → Status) (W : World R V) (S : Nat → String → Option V) : Prop where
  hid : ∀ i, st i = .hidden → ∀ n ∈ E.names, S i n = dget (W.tabs i).latest n
  vis : ∀ i c, st i = .shown c → ∀ n ∈ E.names,
    (((pending W i n).getLast?.map Prod.fst) <|> S i n) = E.render n (W.prims (E.prim n)).raw
  calm : ∀ i, st i = .shown true → (W.tabs i).points = []
  held : ∀ p, E.store p (W.prims p).raw = (W.prims p).raw

theorem pending_nil {W : World R V} {i : Nat} (h : (W.tabs i).points = []) (n : String) : pending W i n = [] := by
  simp [pending, h, dget_nil]

theorem see_other {i j : Nat} (h : j ≠ i) (S : String → Option V) (m : Msg V) : see i S (j, m) = S := by
  simp [see, h]

/-- What the browser knows about a name after `shown`. -/
theorem see_shown (i : Nat) (S : String → Option V) (d known : List (String × V)) (hd : (d.map Prod.fst).Nodup)
    (n : String) (x : V) (hx : dget d n = some x) :
    (if same d known then ([] : List (Nat × Msg V)) else [(i, .values (toSend known d))]).foldl (see i) S n =
      if dget known n = some x then S n else some x := by
  by_cases hs : same d known = true
  · rw [if_pos hs, if_pos (same_get d known hs n x hx)]
    rfl
  · rw [if_neg hs]
    simp only [List.foldl_cons, List.foldl_nil, see, if_true, dget_toSend _ _ _ hd, hx]
    by_cases hk : dget known n = some x
    · simp [hk]
    · simp [hk]

theorem step_sync {E : Env R V} (hnd : E.names.Nodup) (hst : ∀ p v, E.store p (E.store p v) = E.store p v)
    {st st' : Nat → Status} {W : World R V} {S : Nat → String → Option V}
    (h : Inv E (Act E st) W) (hr : Readable E (fun x => E.nan x = false) W) (hs : Sync E st W S) (op : Op R)
    (hf : ∀ p v t, op = .write p v t → Fits E (fun x => E.nan x = false) p (E.store p v))
    (hfol : follow1 true st op = some st') :
    Sync E st' (step E W op).1 (fun i => (step E W op).2.1.foldl (see i) (S i)) := by
  cases op with
  | write p v t =>
    have hf := hf p v t rfl
    obtain ⟨g1, g2, g3, g4, g5, g6⟩ := write_ok h (fun _ _ ha => ha.2) p v t
      (fun n hn hp => (hf n hn hp).imp fun _ hx => hx.1)
    simp only [follow1, Option.some.injEq] at hfol
    subst hfol
    show Sync E _ (write E W p v t).1 S
    constructor
    · intro i hi n hn
      rw [g4]
      refine hs.hid i ?_ n hn
      cases hsi : st i <;> rw [hsi] at hi <;> first | rfl | cases hi
    · intro i c hi n hn
      obtain ⟨c0, hi0⟩ : ∃ c0, st i = .shown c0 := by
        cases hsi : st i <;> rw [hsi] at hi <;> first | exact ⟨_, rfl⟩ | cases hi
      have hv := hs.vis i c0 hi0 n hn
      rw [g3]
      by_cases hp : E.prim n = p
      · rw [if_pos hp]
        by_cases hch : (W.prims p).raw = v
        · rw [g6 i n (fun _ _ => hch), hv, hp, ← hch, hs.held]
        · obtain ⟨x, hx, _⟩ := hf n hn hp
          rw [g5 i n x ⟨by rw [hi0]; rfl, hn⟩ hx hp hch, hx]
          simp
      · rw [if_neg hp, g6 i n (fun _ hc => absurd hc hp)]
        exact hv
    · intro i hi
      cases hsi : st i <;> rw [hsi] at hi <;> cases hi
    · intro q
      rw [g3]
      by_cases hq : q = p
      · rw [if_pos hq, hq, hst]
      · rw [if_neg hq]; exact hs.held q
  | shown i =>
    simp only [follow1] at hfol
    by_cases hi : st i = .hidden
    · rw [if_pos hi] at hfol
      cases hfol
      have hoff : (st i).isShown = false := by rw [hi]; rfl
      have hna : ∀ n, ¬ Act E st i n := by rintro n ⟨ha, _⟩; rw [hoff] at ha; cases ha
      obtain ⟨d, W', hd, he, h1, h2, h3, h4, h5⟩ := step_shown hnd h hr i hna
      obtain ⟨d', hd', k1, k2, k3, k4, _⟩ := values_ok E W E.names (fun n hn => (hr n hn).imp fun _ hx => hx.1)
      rw [hd] at hd'
      cases hd'
      have hpts : (W'.tabs i).points = [] := by rw [h3]; exact h.quiet i hna
      rw [he]
      dsimp only
      have hother : ∀ j, j ≠ i → (if same d (W.tabs i).latest = true then ([] : List (Nat × Msg V)) else
            [(i, .values (toSend (W.tabs i).latest d))]).foldl (see j) (S j) = S j := by
        intro j hj
        split
        · rfl
        · exact see_other (Ne.symm hj) (S j) _
      constructor
      · intro j hj n hn
        have hji : j ≠ i := by rintro rfl; rw [upd_self] at hj; cases hj
        rw [upd_ne _ _ hji] at hj
        rw [hother j hji, h4 j hji]
        exact hs.hid j hj n hn
      · intro j c hj n hn
        rw [h2]
        by_cases hji : j = i
        · subst hji
          obtain ⟨x, hx, hxn⟩ := hr n hn
          rw [pending_nil hpts, hx, see_shown _ _ _ _ (k4 hnd) n x (k1 n x hn hx hxn)]
          simp only [List.getLast?_nil, Option.map_none]
          by_cases hk : dget (W.tabs j).latest n = some x
          · rw [if_pos hk, hs.hid j hi n hn, hk]; rfl
          · rw [if_neg hk]; rfl
        · rw [upd_ne _ _ hji] at hj
          rw [hother j hji]
          have : pending W' j n = pending W j n := by simp only [pending, h3]
          rw [this]
          exact hs.vis j c hj n hn
      · intro j hj
        by_cases hji : j = i
        · subst hji; exact hpts
        · rw [upd_ne _ _ hji] at hj
          rw [h3]
          exact hs.calm j hj
      · intro p; rw [h2]; exact hs.held p
    · rw [if_neg hi] at hfol; cases hfol
  | hidden i =>
    obtain ⟨d, W', hd, he, h1, h2, h3, h4, h5⟩ := step_hidden h hr i
    obtain ⟨d', hd', k1, k2, k3, k4, _⟩ := values_ok E W E.names (fun n hn => (hr n hn).imp fun _ hx => hx.1)
    rw [hd] at hd'
    cases hd'
    have hsti : st i = .shown true ∧ st' = upd st i .hidden := by
      simp only [follow1] at hfol
      split at hfol
      · rename_i c hc
        cases c
        · simp at hfol
        · simp at hfol; exact ⟨hc, hfol.symm⟩
      · cases hfol
    obtain ⟨hi, rfl⟩ := hsti
    rw [he]
    dsimp only [List.foldl_nil]
    constructor
    · intro j hj n hn
      by_cases hji : j = i
      · subst hji
        obtain ⟨x, hx, hxn⟩ := hr n hn
        have hv := hs.vis j true hi n hn
        rw [pending_nil (hs.calm j hi)] at hv
        rw [h5, dget_foldl_dset _ _ _ (k4 hnd), k1 n x hn hx hxn]
        simp only [List.getLast?_nil, Option.map_none] at hv
        rw [hx] at hv
        exact hv
      · rw [upd_ne _ _ hji] at hj
        rw [h3 j hji]
        exact hs.hid j hj n hn
    · intro j c hj n hn
      have hji : j ≠ i := by rintro rfl; rw [upd_self] at hj; cases hj
      rw [upd_ne _ _ hji] at hj
      have : pending W' j n = pending W j n := by simp only [pending, h3 j hji]
      rw [this, h2]
      exact hs.vis j c hj n hn
    · intro j hj
      have hji : j ≠ i := by rintro rfl; rw [upd_self] at hj; cases hj
      rw [upd_ne _ _ hji] at hj
      rw [h3 j hji]
      exact hs.calm j hj
    · intro p; rw [h2]; exact hs.held p
  | frame i =>
    have hst' : (∀ j, j ≠ i → st' j = st j) ∧ ((∃ c, st i = .shown c) ∧ st' i = .shown true ∨
        (st i).isShown = false ∧ st' i = st i) := by
      simp only [follow1] at hfol
      split at hfol
      · rename_i c hc
        cases hfol
        exact ⟨fun j hj => upd_ne _ _ hj, .inl ⟨⟨_, hc⟩, upd_self _ _ _⟩⟩
      · rename_i hc
        cases hfol
        refine ⟨fun j _ => rfl, .inr ⟨?_, rfl⟩⟩
        cases hsi : st i with
        | shown c => exact absurd hsi (hc c)
        | hidden => rfl
        | closed => rfl
    obtain ⟨ho, hi⟩ := hst'
    by_cases hp : (W.tabs i).points = []
    · simp only [step, hp, if_true, List.foldl_nil]
      constructor
      · intro j hj n hn
        by_cases hji : j = i
        · subst hji
          rcases hi with ⟨_, hi⟩ | ⟨_, hi⟩
          · rw [hi] at hj; cases hj
          · exact hs.hid j (hi ▸ hj) n hn
        · exact hs.hid j (ho j hji ▸ hj) n hn
      · intro j c hj n hn
        by_cases hji : j = i
        · subst hji
          rcases hi with ⟨⟨c', hc'⟩, _⟩ | ⟨_, hi⟩
          · exact hs.vis j c' hc' n hn
          · exact hs.vis j c (hi ▸ hj) n hn
        · exact hs.vis j c (ho j hji ▸ hj) n hn
      · intro j hj
        by_cases hji : j = i
        · subst hji; exact hp
        · exact hs.calm j (ho j hji ▸ hj)
      · exact hs.held
    · have hshown : ∃ c, st i = .shown c := by
        rcases hi with ⟨hi, _⟩ | ⟨hi, _⟩
        · exact hi
        · exact absurd (h.quiet i (by rintro n ⟨ha, _⟩; rw [hi] at ha; cases ha)) hp
      simp only [step, hp, if_false, List.foldl_cons, List.foldl_nil]
      constructor
      · intro j hj n hn
        have hji : j ≠ i := by
          rintro rfl
          rcases hi with ⟨_, hi⟩ | ⟨hi, _⟩
          · rw [hi] at hj; cases hj
          · obtain ⟨c, hc⟩ := hshown; rw [hc] at hi; cases hi
        rw [see_other (Ne.symm hji)]
        simp only [upd_ne _ _ hji]
        exact hs.hid j (ho j hji ▸ hj) n hn
      · intro j c hj n hn
        by_cases hji : j = i
        · subst hji
          obtain ⟨c0, hc0⟩ := hshown
          have hv := hs.vis j c0 hc0 n hn
          simp only [pending, upd_self, dget_nil, see, if_true]
          exact hv
        · rw [see_other (Ne.symm hji)]
          simp only [pending, upd_ne _ _ hji]
          exact hs.vis j c (ho j hji ▸ hj) n hn
      · intro j hj
        by_cases hji : j = i
        · subst hji; simp only [upd_self]
        · simp only [upd_ne _ _ hji]
          exact hs.calm j (ho j hji ▸ hj)
      · exact hs.held
  | close i =>
    simp only [follow1] at hfol
    by_cases hi : st i = .closed
    · rw [if_pos hi] at hfol; cases hfol
    · rw [if_neg hi] at hfol
      cases hfol
      obtain ⟨g1, g2, g3, g4, g5, g6⟩ := clear_ok h i
      show Sync E _ (clearTelemetry W i).1 S
      have hne : ∀ (j : Nat) (s : Status), s ≠ .closed → upd st i .closed j = s → j ≠ i := by
        rintro j s hs0 hj rfl
        rw [upd_self] at hj
        exact hs0 hj.symm
      constructor
      · intro j hj n hn
        have hji := hne j _ (by simp) hj
        rw [upd_ne _ _ hji] at hj
        rw [g4 j hji]
        exact hs.hid j hj n hn
      · intro j c hj n hn
        have hji := hne j _ (by simp) hj
        rw [upd_ne _ _ hji] at hj
        have : pending (clearTelemetry W i).1 j n = pending W j n := by simp only [pending, g4 j hji]
        rw [this, g3]
        exact hs.vis j c hj n hn
      · intro j hj
        have hji := hne j _ (by simp) hj
        rw [upd_ne _ _ hji] at hj
        rw [g4 j hji]
        exact hs.calm j hj
      · intro p; rw [g3]; exact hs.held p

theorem run_sync {E : Env R V} (hnd : E.names.Nodup) (hst : ∀ p v, E.store p (E.store p v) = E.store p v)
    (ops : List (Op R)) {st st' : Nat → Status} {W : World R V} {S : Nat → String → Option V}
    (h : Inv E (Act E st) W) (hr : Readable E (fun x => E.nan x = false) W) (hs : Sync E st W S)
    (hf : AllFit E (fun x => E.nan x = false) ops) (hfol : follow true st ops = some st') :
    Sync E st' (run E W ops).1 (fun i => (run E W ops).2.1.foldl (see i) (S i)) := by
  induction ops generalizing st W S with
  | nil => cases hfol; exact hs
  | cons op ops ih =>
    simp only [follow] at hfol
    rcases h1 : follow1 true st op with _ | st1
    · rw [h1] at hfol; cases hfol
    · rw [h1] at hfol
      have hf1 : ∀ p v t, op = .write p v t → Fits E (fun x => E.nan x = false) p (E.store p v) :=
        fun p v t he => hf p v t (by simp [he])
      obtain ⟨a, b, c⟩ := step_inv hnd h hr op hf1 h1
      have hs1 := step_sync hnd hst h hr hs op hf1 h1
      have := ih a b hs1 (fun p v t hm => hf p v t (by simp [hm])) hfol
      simp only [run, List.foldl_append]
      exact this

theorem start_sync (E : Env R V) (raw : Nat → R) (hraw : ∀ p, E.store p (raw p) = raw p) :
    Sync E atStart (start raw : World R V) (fun _ _ => none) where
  hid i _ n _ := by simp [start, Tab.create, dget_nil]
  vis i c hi := by cases hi
  calm i hi := by cases hi
  held p := hraw p

/-- **C69.** While a tab is shown, every change of a channel's primitive gives its browser exactly one point,
in order, with the value at that time, whatever the other browsers do: the points delivered since the tab
was shown, and those that wait for the next frame, are the changes since then. Restricted to browsers that
alternate between `shown` and `hidden`, and to values that have a rendering. -/
theorem C69_points_partial (E : Env R V) (hnd : E.names.Nodup) (raw : Nat → R)
    (before after : List (Op R)) (i : Nat) (st : Nat → Status)
    (hfit : StartFit E (fun _ => True) raw) (hfits : AllFit E (fun _ => True) (before ++ .shown i :: after))
    (hfol : follow false atStart (before ++ .shown i :: after) = some st)
    (hl : ∀ op ∈ after, Leaves i op) (n : String) (hn : n ∈ E.names) :
    let W := (run E (start raw) (before ++ [.shown i])).1
    let r := run E W after
    (delivered i n r.2.1 ++ pending r.1 i n).map some =
      (changes E (E.prim n) (W.prims (E.prim n)).raw after).map (fun c => (E.render n c.1).map (fun x => (x, c.2))) := by
  have hsplit : before ++ .shown i :: after = (before ++ [.shown i]) ++ after := by simp
  rw [hsplit] at hfol hfits
  rw [follow_append] at hfol
  rcases h1 : follow false atStart (before ++ [Op.shown i]) with _ | st1
  · rw [h1] at hfol; cases hfol
  · rw [h1] at hfol
    dsimp only [Option.bind] at hfol
    obtain ⟨a, b, _⟩ := run_inv hnd (before ++ [.shown i]) (start_inv E raw) hfit.readable
      (fun p v t hm => hfits p v t (List.mem_append_left _ hm)) h1
    -- the status and the points just after `shown`
    rw [follow_append] at h1
    rcases h0 : follow false atStart before with _ | st0
    · rw [h0] at h1; cases h1
    · rw [h0] at h1
      dsimp only [Option.bind, follow, follow1] at h1
      by_cases hi : st0 i = .hidden
      · rw [if_pos hi] at h1
        cases h1
        obtain ⟨a0, b0, _⟩ := run_inv hnd before (start_inv E raw) hfit.readable
          (fun p v t hm => hfits p v t (by simp [hm])) h0
        have hna : ∀ m, ¬ Act E st0 i m := by rintro m ⟨ha, _⟩; rw [hi] at ha; cases ha
        obtain ⟨d, W', _, he, _, _, h3, _⟩ := step_shown hnd a0 b0 i hna
        have hW : (run E (start raw) (before ++ [.shown i])).1 = W' := by
          rw [run_append]
          simp only [run, he]
        have hp : pending (run E (start raw) (before ++ [.shown i])).1 i n = [] := by
          rw [hW]
          apply pending_nil
          rw [h3]
          exact a0.quiet i hna
        have := run_delivers hnd after a b (fun p v t hm => hfits p v t (List.mem_append_right _ hm)) hfol i
          (by rw [upd_self]; rfl) hl n hn
        dsimp only
        rw [hp] at this
        exact this
      · rw [if_neg hi] at h1; cases h1

/-- **C69.** A tab that is shown has exactly one callback for every name of the environment, on the primitive
of that name; a tab that is hidden or closed has none; and no operation raises. -/
theorem C69_observers_partial (E : Env R V) (hnd : E.names.Nodup) (raw : Nat → R) (ops : List (Op R))
    (st : Nat → Status) (hfit : StartFit E (fun _ => True) raw) (hfits : AllFit E (fun _ => True) ops)
    (hfol : follow false atStart ops = some st) :
    let r := run E (start raw) ops
    r.2.2 = [] ∧ ∀ i n p, ((r.1.prims p).cbs.map Prod.snd).count (i, n) =
      if (st i).isShown = true ∧ n ∈ E.names ∧ E.prim n = p then 1 else 0 := by
  obtain ⟨a, _, c⟩ := run_inv hnd ops (start_inv E raw) hfit.readable hfits hfol
  refine ⟨c, fun i n p => ?_⟩
  by_cases h : (st i).isShown = true ∧ n ∈ E.names ∧ E.prim n = p
  · rw [if_pos h]
    obtain ⟨id, _, hm⟩ := a.live i n ⟨h.1, h.2.1⟩
    rw [h.2.2] at hm
    exact List.count_eq_one_of_mem (a.pairs p) (List.mem_map.mpr ⟨_, hm, rfl⟩)
  · rw [if_neg h]
    apply List.count_eq_zero_of_not_mem
    intro hm
    obtain ⟨⟨id, j, m⟩, hm, hjm⟩ := List.mem_map.mp hm
    cases hjm
    have hb := a.back p id i n hm
    have hk := (a.keys i n id hb.2).1
    exact h ⟨hk.1, hk.2, hb.1⟩

/-- **C69.** A browser that alternates between `shown` and `hidden`, and fetches a frame between the last
assignment and `hidden`, shows the current value of every channel whenever the tab is shown and the frame has
been fetched: nothing is left over from the time it was hidden. Restricted to values that are not NaN and
have a rendering. -/
theorem C69_current_partial (E : Env R V) (hnd : E.names.Nodup)
    (hst : ∀ p v, E.store p (E.store p v) = E.store p v) (raw : Nat → R) (hraw : ∀ p, E.store p (raw p) = raw p)
    (ops : List (Op R)) (st : Nat → Status) (hfit : StartFit E (fun x => E.nan x = false) raw)
    (hfits : AllFit E (fun x => E.nan x = false) ops) (hfol : follow true atStart ops = some st)
    (i : Nat) (hi : st i = .shown true) (n : String) (hn : n ∈ E.names) :
    let r := run E (start raw) ops
    view i r.2.1 n = E.render n (r.1.prims (E.prim n)).raw := by
  have := run_sync hnd hst ops (start_inv E raw) hfit.readable (start_sync E raw hraw) hfits hfol
  have hv := this.vis i true hi n hn
  rw [pending_nil (this.calm i hi)] at hv
  exact hv

/-! ### Where the code falls short -/

/-- **C69 fails.** A change that happens after the last frame and before the tab is hidden is lost for good:
when the tab is shown again, the server takes it as known and the browser goes on showing the old value. -/
theorem C69_stale_fails (E : Env R V) (hnd : E.names.Nodup)
    (hst : ∀ p v, E.store p (E.store p v) = E.store p v) (raw : Nat → R) (hraw : ∀ p, E.store p (raw p) = raw p)
    (ops : List (Op R)) (st : Nat → Status) (hfit : StartFit E (fun x => E.nan x = false) raw)
    (hfits : AllFit E (fun x => E.nan x = false) ops) (hfol : follow true atStart ops = some st)
    (i : Nat) (hi : st i = .shown true) (n : String) (hn : n ∈ E.names) (v : R) (t : Int)
    (hv : Fits E (fun x => E.nan x = false) (E.prim n) (E.store (E.prim n) v))
    (hch : E.render n (E.store (E.prim n) v) ≠ E.render n ((run E (start raw) ops).1.prims (E.prim n)).raw) :
    let r := run E (start raw) (ops ++ [.write (E.prim n) v t, .hidden i, .shown i, .frame i])
    r.2.2 = [] ∧ (r.1.prims (E.prim n)).raw = E.store (E.prim n) v ∧ (r.1.tabs i).points = [] ∧
    view i r.2.1 n = view i (run E (start raw) ops).2.1 n ∧
    view i r.2.1 n ≠ E.render n (r.1.prims (E.prim n)).raw := by
  obtain ⟨a, b, c⟩ := run_inv hnd ops (start_inv E raw) hfit.readable hfits hfol
  have hcur := C69_current_partial E hnd hst raw hraw ops st hfit hfits hfol i hi n hn
  dsimp only at hcur ⊢
  rw [run_append]
  generalize (run E (start raw) ops).2.1 = outs at *
  generalize (run E (start raw) ops).2.2 = errs at *
  generalize (run E (start raw) ops).1 = W at *
  subst c
  obtain ⟨g1, g2, g3, g4, _⟩ := write_ok a (fun _ _ ha => ha.2) (E.prim n) v t
    (fun n hn hp => (hv n hn hp).imp fun _ hx => hx.1)
  have hw : step E W (.write (E.prim n) v t) = ((write E W (E.prim n) v t).1, [], none) := by
    simp only [step, g1]
  generalize (write E W (E.prim n) v t).1 = W1 at *
  have hr1 : Readable E (fun x => E.nan x = false) W1 := by
    intro m hm
    rw [g3]
    by_cases hp : E.prim m = E.prim n
    · rw [if_pos hp]; exact hv m hm hp
    · rw [if_neg hp]; exact b m hm
  obtain ⟨d, W2, hd, he, h1, h2, h3, h4, h5⟩ := step_hidden g2 hr1 i
  have hr2 : Readable E (fun x => E.nan x = false) W2 := by
    intro m hm; rw [h2]; exact hr1 m hm
  obtain ⟨d', W3, hd', he', h1', h2', h3', h4', h5'⟩ := step_shown hnd h1 hr2 i (fun m hm => hm.1 rfl)
  have hdd : d' = d := by
    rw [values_raw E W1 W2 h2] at hd'
    rw [hd] at hd'
    cases hd'; rfl
  subst hdd
  have hpts : (W3.tabs i).points = [] := by rw [h3']; exact h4
  have hfr : step E W3 (.frame i) = (W3, [], none) := by simp only [step, hpts, if_true]
  obtain ⟨y, hy, hyn⟩ := hv n hn rfl
  have hraw1 : (W1.prims (E.prim n)).raw = E.store (E.prim n) v := by rw [g3, if_pos rfl]
  obtain ⟨d'', hd'', k1, -, -, k4, -⟩ := values_ok E W1 E.names (fun m hm => (hr1 m hm).imp fun _ hx => hx.1)
  rw [hd] at hd''
  cases hd''
  have hdn : dget d' n = some y := k1 n y hn (by rw [hraw1]; exact hy) hyn
  have hknown : dget (W2.tabs i).latest n = some y := by
    rw [h5, dget_foldl_dset _ _ _ (k4 hnd), hdn]; rfl
  have hrun : run E W [.write (E.prim n) v t, .hidden i, .shown i, .frame i] = (W3,
      (if same d' (W2.tabs i).latest = true then [] else [(i, Msg.values (toSend (W2.tabs i).latest d'))]), []) := by
    simp only [run, hw, he, he', hfr, List.nil_append, List.append_nil, Option.toList]
  rw [hrun]
  have hview : view i (outs ++ (if same d' (W2.tabs i).latest = true then [] else
      [(i, Msg.values (toSend (W2.tabs i).latest d'))])) n = view i outs n := by
    unfold view
    rw [List.foldl_append, see_shown i _ d' _ (k4 hnd) n y hdn, if_pos hknown]
  have hraw3 : (W3.prims (E.prim n)).raw = E.store (E.prim n) v := by rw [h2', h2, hraw1]
  refine ⟨rfl, hraw3, hpts, hview, ?_⟩
  dsimp only
  rw [hview, hraw3, hcur]
  exact fun hc => hch hc.symm

theorem notifyAll_count (E : Env R V) (l : List (Nat × (Nat × String))) (W : World R V)
    (hr : ∀ id i n, (id, (i, n)) ∈ l → ∃ x, E.render n (W.prims (E.prim n)).raw = some x) (j : Nat) (m : String) :
    (pending (notifyAll E W l).1 j m).length = (pending W j m).length + (l.map Prod.snd).count (j, m) := by
  induction l generalizing W with
  | nil => rfl
  | cons q rest ih =>
    obtain ⟨id, i, n⟩ := q
    obtain ⟨x, hx⟩ := hr id i n (by simp)
    simp only [notifyAll, notify, hx, List.map_cons, List.count_cons]
    rw [ih]
    case hr => exact fun id' a b hm => hr id' a b (by simp [hm])
    by_cases hj : j = i
    · subst hj
      by_cases hm : m = n
      · subst hm
        simp [pending, upd_self, dget_dset_self]
        omega
      · simp [pending, upd_self, dget_dset_ne _ _ _ _ (Ne.symm hm), Ne.symm hm]
    · simp [pending, upd_ne _ _ hj, Ne.symm hj]

theorem setups_count (E : Env R V) (i : Nat) (l : List String) (W : World R V) (n : String) :
    (((l.foldl (fun w m => setup E w i m) W).prims (E.prim n)).cbs.map Prod.snd).count (i, n) =
      ((W.prims (E.prim n)).cbs.map Prod.snd).count (i, n) + l.count n := by
  induction l generalizing W with
  | nil => rfl
  | cons m l ih =>
    rw [List.foldl_cons, ih, List.count_cons]
    by_cases hp : E.prim n = E.prim m
    · simp only [setup, hp, upd_self, List.map_append, List.count_append, List.map_cons, List.map_nil,
        List.count_cons, List.count_nil]
      by_cases hm : m = n
      · subst hm; simp; omega
      · have : ((i, m) == (i, n)) = false := by simpa using hm
        have h2 : (m == n) = false := by simpa using hm
        rw [this, h2]; simp
    · have hm : m ≠ n := by rintro rfl; exact hp rfl
      have h2 : (m == n) = false := by simpa using hm
      simp only [setup, upd_ne _ _ hp, h2]
      simp

theorem setups_facts (E : Env R V) (i : Nat) (l : List String) (W : World R V) :
    let W' := l.foldl (fun w m => setup E w i m) W
    (∀ p q, q ∈ (W.prims p).cbs → q ∈ (W'.prims p).cbs) ∧ (∀ p, (W.prims p).next ≤ (W'.prims p).next) ∧
    (∀ m id, dget (W'.tabs i).callbacks m = some id → (m ∈ l ∧ (W.prims (E.prim m)).next ≤ id) ∨
      (m ∉ l ∧ dget (W.tabs i).callbacks m = some id)) ∧
    (∀ m, m ∈ l → dget (W'.tabs i).primitives m = some (E.prim m)) ∧
    (∀ m, m ∉ l → dget (W'.tabs i).primitives m = dget (W.tabs i).primitives m) ∧
    (((W.tabs i).callbacks.map Prod.fst).Nodup → ((W'.tabs i).callbacks.map Prod.fst).Nodup) ∧
    (W'.tabs i).shown = (W.tabs i).shown := by
  induction l generalizing W with
  | nil => exact ⟨fun _ _ h => h, fun _ => Nat.le_refl _, fun m id h => .inr ⟨by simp, h⟩, by simp, fun _ _ => rfl, id, rfl⟩
  | cons n l ih =>
    obtain ⟨a, b, c, d, e, f, g⟩ := ih (setup E W i n)
    have hnext : ∀ p, (W.prims p).next ≤ ((setup E W i n).prims p).next := by
      intro p
      by_cases hp : p = E.prim n
      · subst hp; simp [setup, upd_self]
      · simp [setup, upd_ne _ _ hp]
    dsimp only [List.foldl_cons]
    refine ⟨?_, ?_, ?_, ?_, ?_, ?_, ?_⟩
    · intro p q hq
      apply a
      by_cases hp : p = E.prim n
      · subst hp; simp [setup, upd_self, hq]
      · simpa [setup, upd_ne _ _ hp] using hq
    · intro p; exact (hnext p).trans (b p)
    · intro m id hm
      rcases c m id hm with ⟨h1, h2⟩ | ⟨h1, h2⟩
      · exact .inl ⟨by simp [h1], (hnext _).trans h2⟩
      · by_cases hmn : m = n
        · subst hmn
          simp only [setup, upd_self, dget_dset_self, Option.some.injEq] at h2
          exact .inl ⟨by simp, by omega⟩
        · simp only [setup, upd_self, dget_dset_ne _ _ _ _ (Ne.symm hmn)] at h2
          exact .inr ⟨by simp [hmn, h1], h2⟩
    · intro m hm
      by_cases hml : m ∈ l
      · exact d m hml
      · have : m = n := by simpa [hml] using hm
        subst this
        rw [e m hml]
        simp [setup, upd_self, dget_dset_self]
    · intro m hm
      simp only [List.mem_cons, not_or] at hm
      rw [e m hm.2]
      simp [setup, upd_self, dget_dset_ne _ _ _ _ (Ne.symm hm.1)]
    · intro hnd
      apply f
      simp only [setup, upd_self]
      exact Environment.dset_nodup _ _ _ hnd
    · rw [g]; simp [setup, upd_self]

theorem step_shown_eq (E : Env R V) {W : World R V} {ok : V → Prop} (hr : Readable E ok W) (i : Nat) :
    ∃ d out, step E W (.shown i) = (saveLatest (E.names.foldl (fun w n => setup E w i n) (mark W i true)) i d, out, none) := by
  obtain ⟨d, hd, _⟩ := values_ok E W E.names (fun n hn => (hr n hn).imp fun _ hx => hx.1)
  have hd' : values E (mark W i true) E.names = .ok d := (values_raw E W (mark W i true) (fun _ => rfl) _).trans hd
  refine ⟨d, (if same d ((mark W i true).tabs i).latest then [] else
    [(i, .values (toSend ((mark W i true).tabs i).latest d))]), ?_⟩
  simp only [step, hd']

/-- **C69 fails.** A second `shown` without a `hidden` in between registers every callback again and forgets
the first: each change gives two points, and after `hidden` the first callbacks are still there and still
record points for the hidden tab, with nothing left to remove them. -/
theorem C69_twice_fails (E : Env R V) (hnd : E.names.Nodup) (raw : Nat → R) (ops : List (Op R))
    (st : Nat → Status) (hfit : StartFit E (fun _ => True) raw) (hfits : AllFit E (fun _ => True) ops)
    (hfol : follow false atStart ops = some st) (i : Nat) (hi : (st i).isShown = true) (n : String)
    (hn : n ∈ E.names) (v : R) (t : Int) (hv : Fits E (fun _ => True) (E.prim n) (E.store (E.prim n) v)) :
    let W := (run E (start raw) ops).1
    let W2 := (run E W [.shown i]).1
    let W3 := (run E W [.shown i, .hidden i]).1
    (run E W [.shown i, .hidden i]).2.2 = [] ∧
    (W3.tabs i).shown = false ∧ (W3.tabs i).callbacks = [] ∧
    (∃ id, (id, (i, n)) ∈ (W3.prims (E.prim n)).cbs) ∧
    ((W.prims (E.prim n)).raw ≠ v →
      (pending (write E W2 (E.prim n) v t).1 i n).length = (pending W2 i n).length + 2 ∧
      (pending (write E W3 (E.prim n) v t).1 i n) ≠ []) := by
  obtain ⟨a, b, -⟩ := run_inv hnd ops (start_inv E raw) hfit.readable hfits hfol
  dsimp only
  generalize (run E (start raw) ops).1 = W at *
  obtain ⟨d, out, hs⟩ := step_shown_eq E b i
  have hm := mark_inv a i true
  have hnear := (mark_near W i true).trans (setups_near E i E.names (mark W i true))
  obtain ⟨f1, f2, f3, f4, f5, f6, f7⟩ := setups_facts E i E.names (mark W i true)
  have hcount := setups_count E i E.names (mark W i true) n
  have hb2 : ∀ p id j m, (id, (j, m)) ∈ ((E.names.foldl (fun w n => setup E w i n) (mark W i true)).prims p).cbs →
      m ∈ E.names ∧ E.prim m = p := by
    have hgen : ∀ (l : List String) (w : World R V), (∀ m ∈ l, m ∈ E.names) →
        (∀ p id j m, (id, (j, m)) ∈ (w.prims p).cbs → m ∈ E.names ∧ E.prim m = p) →
        ∀ p id j m, (id, (j, m)) ∈ ((l.foldl (fun w n => setup E w i n) w).prims p).cbs → m ∈ E.names ∧ E.prim m = p := by
      intro l
      induction l with
      | nil => intro w _ hw; exact hw
      | cons k l ih =>
        intro w hl hw
        apply ih (setup E w i k) (fun m hm => hl m (by simp [hm]))
        intro p id j m hm
        by_cases hp : p = E.prim k
        · subst hp
          simp only [setup, upd_self, List.mem_append, List.mem_singleton, Prod.mk.injEq] at hm
          rcases hm with hm | ⟨_, _, rfl⟩
          · exact hw _ _ _ _ hm
          · exact ⟨hl m (by simp), rfl⟩
        · simp only [setup, upd_ne _ _ hp] at hm
          exact hw _ _ _ _ hm
    refine hgen E.names (mark W i true) (fun _ h => h) ?_
    intro p id j m hm'
    have hb := hm.back p id j m hm'
    exact ⟨(hm.keys j m id hb.2).1.2, hb.1⟩
  have hone : ((W.prims (E.prim n)).cbs.map Prod.snd).count (i, n) = 1 := by
    obtain ⟨id, _, hl⟩ := a.live i n ⟨hi, hn⟩
    exact List.count_eq_one_of_mem (a.pairs _) (List.mem_map.mpr ⟨_, hl, rfl⟩)
  obtain ⟨idn, hidn, hlive⟩ := a.live i n ⟨hi, hn⟩
  have hfresh := a.fresh (E.prim n) _ hlive
  have hkeysAll : ∀ m id, dget ((mark W i true).tabs i).callbacks m = some id → m ∈ E.names :=
    fun m id hk => (hm.keys i m id hk).1.2
  have hdict := f6 (hm.dict i)
  have hmark : ((mark W i true).prims (E.prim n)).cbs = (W.prims (E.prim n)).cbs := rfl
  rw [hmark, hone, List.count_eq_one_of_mem hnd hn] at hcount
  generalize hX : E.names.foldl (fun w n => setup E w i n) (mark W i true) = X at *
  -- the state after the second `shown`
  have hr2 : Readable E (fun _ => True) (saveLatest X i d) := by
    intro m hm'
    show ∃ x, E.render m (X.prims (E.prim m)).raw = some x ∧ True
    rw [hnear.raw]
    exact b m hm'
  have hYt : ((mark (saveLatest X i d) i false).tabs i) = ⟨false, (X.tabs i).points, (X.tabs i).primitives,
      (X.tabs i).callbacks, d.foldl (fun l q => dset l q.1 q.2) (X.tabs i).latest⟩ := by
    simp only [mark, saveLatest, upd_self]
  obtain ⟨d2, hd2, _⟩ := values_ok E (saveLatest X i d) E.names (fun m hm' => (hr2 m hm').imp fun _ hx => hx.1)
  have hd2' : values E (mark (saveLatest X i d) i false) E.names = .ok d2 :=
    (values_raw E (saveLatest X i d) (mark (saveLatest X i d) i false) (fun _ => rfl) _).trans hd2
  obtain ⟨r1, r2⟩ := removeAll_ok X.prims (X.tabs i).primitives (X.tabs i).callbacks (by
    intro q hq
    have hk := Environment.mem_dget hdict hq
    rcases f3 q.1 q.2 hk with ⟨hq', _⟩ | ⟨hq', hk'⟩
    · exact ⟨_, f4 _ hq'⟩
    · exact absurd (hkeysAll _ _ hk') hq')
  have hclear : clearTelemetry (mark (saveLatest X i d) i false) i =
      (⟨(removeAll X.prims (X.tabs i).primitives (X.tabs i).callbacks).1,
        upd (mark (saveLatest X i d) i false).tabs i ⟨false, [], [], [],
          d.foldl (fun l q => dset l q.1 q.2) (X.tabs i).latest⟩⟩, none) := by
    have hpr : (mark (saveLatest X i d) i false).prims = X.prims := rfl
    rcases hrm : removeAll X.prims (X.tabs i).primitives (X.tabs i).callbacks with ⟨ps, _ | e⟩
    · simp only [clearTelemetry, hYt, hpr, hrm]
    · rw [hrm] at r1; cases r1
  have hhid : step E (saveLatest X i d) (.hidden i) = (saveLatest
      ⟨(removeAll X.prims (X.tabs i).primitives (X.tabs i).callbacks).1,
        upd (mark (saveLatest X i d) i false).tabs i ⟨false, [], [], [],
          d.foldl (fun l q => dset l q.1 q.2) (X.tabs i).latest⟩⟩ i d2, [], none) := by
    simp only [step, hd2', hclear]
  simp only [run, hs, hhid]
  have hleak : (idn, (i, n)) ∈ ((removeAll X.prims (X.tabs i).primitives (X.tabs i).callbacks).1 (E.prim n)).cbs := by
    rw [(r2 (E.prim n)).2.2.2, List.mem_filter]
    refine ⟨f1 _ _ hlive, ?_⟩
    simp only [List.all_eq_true, Bool.not_eq_true', Bool.and_eq_false_iff, decide_eq_false_iff_not,
      beq_eq_false_iff_ne]
    rintro ⟨m, id⟩ hc
    by_cases hid : id = idn
    · left
      intro hp
      have hk := Environment.mem_dget hdict hc
      rcases f3 m id hk with ⟨hq', hge⟩ | ⟨hq', hk'⟩
      · rw [f4 m hq'] at hp
        have hp : E.prim m = E.prim n := Option.some.inj hp
        rw [hp] at hge
        have : ((mark W i true).prims (E.prim n)).next = (W.prims (E.prim n)).next := rfl
        rw [this] at hge
        dsimp only at hfresh
        omega
      · exact hq' (hkeysAll _ _ hk')
    · right; exact hid
  have hraw3 : ∀ p, ((removeAll X.prims (X.tabs i).primitives (X.tabs i).callbacks).1 p).raw = (W.prims p).raw :=
    fun p => (r2 p).1.trans (hnear.raw p)
  refine ⟨by simp [Option.toList], by simp [saveLatest, upd_self], by simp [saveLatest, upd_self],
    ⟨idn, hleak⟩, fun hne => ⟨?_, ?_⟩⟩
  · rw [write_eq]
    have h0 : ((saveLatest X i d).prims (E.prim n)).raw ≠ v := by
      show (X.prims (E.prim n)).raw ≠ v
      rw [hnear.raw]; exact hne
    rw [if_pos h0, notifyAll_count]
    · show (pending (saveLatest X i d) i n).length + ((X.prims (E.prim n)).cbs.map Prod.snd).count (i, n) = _
      rw [hcount]
    · intro id j m hmem
      obtain ⟨h1, h2⟩ := hb2 _ _ _ _ hmem
      rw [(stored_prim E _ _ v t _).2.2, if_pos h2]
      exact (hv m h1 h2).imp fun _ hx => hx.1
  · rw [write_eq]
    have h0 : ((saveLatest (⟨(removeAll X.prims (X.tabs i).primitives (X.tabs i).callbacks).1,
        upd (mark (saveLatest X i d) i false).tabs i ⟨false, [], [], [],
          d.foldl (fun l q => dset l q.1 q.2) (X.tabs i).latest⟩⟩ : World R V) i d2).prims (E.prim n)).raw ≠ v := by
      show ((removeAll X.prims (X.tabs i).primitives (X.tabs i).callbacks).1 (E.prim n)).raw ≠ v
      rw [hraw3]; exact hne
    rw [if_pos h0]
    intro hc
    have hlen := congrArg List.length hc
    rw [notifyAll_count] at hlen
    · have : 0 < (((removeAll X.prims (X.tabs i).primitives (X.tabs i).callbacks).1 (E.prim n)).cbs.map Prod.snd).count (i, n) :=
        List.count_pos_iff.mpr (List.mem_map.mpr ⟨_, hleak, rfl⟩)
      simp only [List.length_nil] at hlen
      have e0 : ((saveLatest (⟨(removeAll X.prims (X.tabs i).primitives (X.tabs i).callbacks).1,
        upd (mark (saveLatest X i d) i false).tabs i ⟨false, [], [], [],
          d.foldl (fun l q => dset l q.1 q.2) (X.tabs i).latest⟩⟩ : World R V) i d2).prims (E.prim n)).cbs =
          ((removeAll X.prims (X.tabs i).primitives (X.tabs i).callbacks).1 (E.prim n)).cbs := rfl
      rw [e0] at hlen
      omega
    · intro id j m hmem
      have hmem' : (id, (j, m)) ∈ (X.prims (E.prim n)).cbs := by
        have hmem2 : (id, (j, m)) ∈ ((removeAll X.prims (X.tabs i).primitives (X.tabs i).callbacks).1 (E.prim n)).cbs := hmem
        rw [(r2 (E.prim n)).2.2.2] at hmem2
        exact (List.mem_filter.mp hmem2).1
      obtain ⟨h1, h2⟩ := hb2 _ _ _ _ hmem'
      rw [(stored_prim E _ _ v t _).2.2, if_pos h2]
      exact (hv m h1 h2).imp fun _ hx => hx.1

theorem notifyAll_raises (E : Env R V) (l : List (Nat × (Nat × String))) (W : World R V) :
    (notifyAll E W l).1.prims = W.prims ∧
    ∀ id i n, (id, (i, n)) ∈ l → E.render n (W.prims (E.prim n)).raw = none → (notifyAll E W l).2 = some .key := by
  induction l generalizing W with
  | nil => exact ⟨rfl, fun id i n h => by cases h⟩
  | cons q rest ih =>
    obtain ⟨id0, i0, n0⟩ := q
    rcases hx : E.render n0 (W.prims (E.prim n0)).raw with _ | x
    · exact ⟨by simp only [notifyAll, notify, hx], fun id i n _ _ => by simp only [notifyAll, notify, hx]⟩
    · simp only [notifyAll, notify, hx]
      refine ⟨(ih _).1, ?_⟩
      intro id i n hm hr
      have : (id, (i, n)) ∈ rest := by
        rcases List.mem_cons.mp hm with h | h
        · cases h; rw [hx] at hr; cases hr
        · exact h
      exact (ih _).2 id i n this hr

/-- **C69 fails.** While a tab is shown, giving an enumerated channel a value without a name raises `KeyError`
in the code that makes the assignment, after the value has been stored; from then on no tab can be shown, and
none can be hidden: its callbacks stay. With no tab shown the same assignment raises nothing. -/
theorem C69_enum_fails (E : Env R V) (hnd : E.names.Nodup) (raw : Nat → R) (ops : List (Op R))
    (st : Nat → Status) (hfit : StartFit E (fun _ => True) raw) (hfits : AllFit E (fun _ => True) ops)
    (hfol : follow false atStart ops = some st) (n : String) (hn : n ∈ E.names) (v : R) (t : Int)
    (hv : E.render n (E.store (E.prim n) v) = none) :
    let W := (run E (start raw) ops).1
    let W1 := (step E W (.write (E.prim n) v t)).1
    ((W1.prims (E.prim n)).raw = E.store (E.prim n) v) ∧
    ((∃ i, (st i).isShown = true) → (W.prims (E.prim n)).raw ≠ v →
      (step E W (.write (E.prim n) v t)).2.2 = some .key) ∧
    ((∀ i, (st i).isShown = false) → (step E W (.write (E.prim n) v t)).2.2 = none) ∧
    (∀ j, (step E W1 (.shown j)).2.2 = some .key ∧ (step E W1 (.hidden j)).2.2 = some .key ∧
      (step E W1 (.hidden j)).1.prims = W1.prims ∧ ((step E W1 (.hidden j)).1.tabs j).shown = false) := by
  obtain ⟨a, b, -⟩ := run_inv hnd ops (start_inv E raw) hfit.readable hfits hfol
  dsimp only
  generalize (run E (start raw) ops).1 = W at *
  have hraw : ((write E W (E.prim n) v t).1.prims (E.prim n)).raw = E.store (E.prim n) v := by
    rw [write_eq]
    split
    · rw [(notifyAll_raises E _ _).1]
      rw [(stored_prim E W _ v t _).2.2, if_pos rfl]
    · rw [(stored_prim E W _ v t _).2.2, if_pos rfl]
  refine ⟨hraw, ?_, ?_, ?_⟩
  · rintro ⟨i, hi⟩ hne
    obtain ⟨id, _, hl⟩ := a.live i n ⟨hi, hn⟩
    show (write E W (E.prim n) v t).2 = _
    rw [write_eq, if_pos hne]
    refine (notifyAll_raises E _ _).2 id i n hl ?_
    rw [(stored_prim E W _ v t _).2.2, if_pos rfl]
    exact hv
  · intro hi
    show (write E W (E.prim n) v t).2 = _
    have hnil : (W.prims (E.prim n)).cbs = [] := by
      apply List.eq_nil_iff_forall_not_mem.mpr
      rintro ⟨id, j, m⟩ hm
      have hb := a.back _ id j m hm
      have := (a.keys j m id hb.2).1.1
      rw [hi j] at this
      cases this
    rw [write_eq, hnil]
    split <;> rfl
  · intro j
    have hval : ∀ c, values E (mark (write E W (E.prim n) v t).1 j c) E.names = .error .key := by
      intro c
      refine values_raises E _ E.names n hn ?_
      show E.render n ((write E W (E.prim n) v t).1.prims (E.prim n)).raw = none
      rw [hraw]; exact hv
    have hstep : (step E W (.write (E.prim n) v t)).1 = (write E W (E.prim n) v t).1 := rfl
    rw [hstep]
    generalize (write E W (E.prim n) v t).1 = W1 at *
    simp only [step, hval]
    refine ⟨by trivial, by trivial, rfl, by simp [mark, upd_self]⟩

/-- **C69 fails.** A tab that is hidden before it was ever shown counts as up to date: when it is shown, the
browser is sent nothing. -/
theorem C69_hidden_first_fails (E : Env R V) (hnd : E.names.Nodup) (raw : Nat → R)
    (hfit : StartFit E (fun x => E.nan x = false) raw) (i : Nat) :
    let r := run E (start raw : World R V) [.hidden i, .shown i, .frame i]
    r.2.2 = [] ∧ (r.1.tabs i).shown = true ∧ ∀ n ∈ E.names, view i r.2.1 n = none := by
  obtain ⟨d, W2, hd, he, h1, h2, h3, h4, h5⟩ := step_hidden (start_inv E raw) hfit.readable i
  have hr2 : Readable E (fun x => E.nan x = false) W2 := by
    intro m hm; rw [h2]; exact hfit.readable m hm
  obtain ⟨d', W3, hd', he', h1', h2', h3', h4', h5'⟩ := step_shown hnd h1 hr2 i (fun m hm => hm.1 rfl)
  rw [values_raw E (start raw) W2 h2, hd] at hd'
  cases hd'
  have hpts : (W3.tabs i).points = [] := by rw [h3']; exact h4
  have hfr : step E W3 (.frame i) = (W3, [], none) := by simp only [step, hpts, if_true]
  obtain ⟨d'', hd'', k1, -, -, k4, -⟩ := values_ok E (start raw : World R V) E.names
    (fun m hm => (hfit.readable m hm).imp fun _ hx => hx.1)
  rw [hd] at hd''
  cases hd''
  dsimp only
  have hrun : run E (start raw) [.hidden i, .shown i, .frame i] = (W3,
      (if same d (W2.tabs i).latest = true then [] else [(i, Msg.values (toSend (W2.tabs i).latest d))]), []) := by
    simp only [run, he, he', hfr, List.nil_append, List.append_nil, Option.toList]
  rw [hrun]
  refine ⟨rfl, ?_, ?_⟩
  · obtain ⟨d3, out, hs⟩ := step_shown_eq E hr2 i
    rw [he'] at hs
    have hW3 : W3 = _ := congrArg Prod.fst hs
    dsimp only
    rw [hW3]
    simp only [saveLatest, upd_self]
    rw [(setups_facts E i E.names (mark W2 i true)).2.2.2.2.2.2]
    simp [mark, upd_self]
  · intro n hn
    obtain ⟨x, hx, hxn⟩ := hfit.readable (E := E) n hn
    have hdn : dget d n = some x := k1 n x hn hx hxn
    unfold view
    rw [see_shown i _ d _ (k4 hnd) n x hdn, if_pos]
    rw [h5, dget_foldl_dset _ _ _ (k4 hnd), hdn]
    rfl

/-- **C69 fails.** A channel that becomes NaN while its tab is shown, and regains its old value while the tab
is hidden, stays NaN in the browser: the saved value was never replaced, so the old value is not sent again. -/
theorem C69_nan_fails (E : Env R V) (hnd : E.names.Nodup) (raw : Nat → R) (ops : List (Op R))
    (st : Nat → Status) (hfit : StartFit E (fun _ => True) raw) (hfits : AllFit E (fun _ => True) ops)
    (hfol : follow false atStart ops = some st) (i : Nat) (hi : st i = .hidden) (n : String) (hn : n ∈ E.names)
    (x z : V) (old v : R) (t t' : Int) (hold : ((run E (start raw) ops).1.prims (E.prim n)).raw = old)
    (hkeep : E.store (E.prim n) old = old) (hx : E.render n old = some x) (hxn : E.nan x = false)
    (hne : old ≠ v) (hv : Fits E (fun _ => True) (E.prim n) (E.store (E.prim n) v))
    (hz : E.render n (E.store (E.prim n) v) = some z) (hzn : E.nan z = true) :
    let r := run E (start raw) (ops ++ [.shown i, .write (E.prim n) v t, .frame i, .hidden i,
      .write (E.prim n) old t', .shown i, .frame i])
    r.2.2 = [] ∧ (r.1.tabs i).points = [] ∧ E.render n (r.1.prims (E.prim n)).raw = some x ∧
    view i r.2.1 n = some z := by
  obtain ⟨a, b, c⟩ := run_inv hnd ops (start_inv E raw) hfit.readable hfits hfol
  dsimp only
  rw [run_append]
  generalize (run E (start raw) ops).2.1 = outs at *
  generalize (run E (start raw) ops).2.2 = errs at *
  generalize (run E (start raw) ops).1 = W at *
  subst c
  have hna : ∀ m, ¬ Act E st i m := by rintro m ⟨ha, _⟩; rw [hi] at ha; cases ha
  have hfold : Fits E (fun _ => True) (E.prim n) (E.store (E.prim n) old) := by
    intro m hm hp
    rw [hkeep, ← hold, ← hp]
    exact b m hm
  -- shown
  obtain ⟨d1, W1, hd1, e1, i1, r1, p1, l1', l1⟩ := step_shown hnd a b i hna
  obtain ⟨d1', hd1', k1, -, -, k1n, -⟩ := values_ok E W E.names (fun m hm => (b m hm).imp fun _ hx => hx.1)
  rw [hd1] at hd1'
  cases hd1'
  have hlat1 : dget (W1.tabs i).latest n = some x := by
    rw [l1, dget_foldl_dset _ _ _ (k1n hnd), k1 n x hn (by rw [hold]; exact hx) hxn]
    rfl
  have hb1 : Readable E (fun _ => True) W1 := by intro m hm; rw [r1]; exact b m hm
  -- the assignment of NaN
  obtain ⟨g1, i2, g3, g4, g5, -⟩ := write_ok i1 (act := fun j m => Act E st j m ∨ (j = i ∧ m ∈ E.names))
    (by rintro j m (h | h); exacts [h.2, h.2]) (E.prim n) v t (fun m hm hp => (hv m hm hp).imp fun _ hx => hx.1)
  have e2 : step E W1 (.write (E.prim n) v t) = ((write E W1 (E.prim n) v t).1, [], none) := by
    simp only [step, g1]
  have hpend : pending (write E W1 (E.prim n) v t).1 i n = [(z, t)] := by
    rw [g5 i n z (.inr ⟨rfl, hn⟩) hz rfl (by rw [r1, hold]; exact hne)]
    rw [pending_nil (by rw [p1]; exact a.quiet i hna)]
    rfl
  generalize (write E W1 (E.prim n) v t).1 = W2 at *
  have hb2 : Readable E (fun _ => True) W2 := by
    intro m hm
    rw [g3]
    by_cases hp : E.prim m = E.prim n
    · rw [if_pos hp]; exact hv m hm hp
    · rw [if_neg hp]; exact hb1 m hm
  -- the frame
  have hpts : (W2.tabs i).points ≠ [] := by
    intro hc
    rw [pending_nil hc] at hpend
    cases hpend
  have e3 : step E W2 (.frame i) = (⟨W2.prims, upd W2.tabs i ⟨(W2.tabs i).shown, [], (W2.tabs i).primitives,
      (W2.tabs i).callbacks, (W2.tabs i).latest⟩⟩, [(i, .points (W2.tabs i).points)], none) := by
    simp only [step, hpts, if_false]
  have i3 : Inv E (fun j m => Act E st j m ∨ (j = i ∧ m ∈ E.names)) (⟨W2.prims, upd W2.tabs i
      ⟨(W2.tabs i).shown, [], (W2.tabs i).primitives, (W2.tabs i).callbacks, (W2.tabs i).latest⟩⟩ : World R V) := by
    refine i2.transfer (fun p => ⟨rfl, rfl⟩) ?_ ?_
    · intro j
      by_cases hj : j = i
      · subst hj; simp only [upd_self]; exact ⟨trivial, trivial⟩
      · simp only [upd_ne _ _ hj]; exact ⟨trivial, trivial⟩
    · intro j hq _
      by_cases hj : j = i
      · subst hj; simp only [upd_self]
      · simp only [upd_ne _ _ hj]; exact hq
  generalize hW3 : (⟨W2.prims, upd W2.tabs i ⟨(W2.tabs i).shown, [], (W2.tabs i).primitives,
      (W2.tabs i).callbacks, (W2.tabs i).latest⟩⟩ : World R V) = W3 at *
  have hp3 : W3.prims = W2.prims := by rw [← hW3]
  have hl3 : (W3.tabs i).latest = (W1.tabs i).latest := by rw [← hW3]; simp only [upd_self]; exact g4 i
  have hb3 : Readable E (fun _ => True) W3 := by intro m hm; rw [hp3]; exact hb2 m hm
  -- hidden
  obtain ⟨d4, W4, hd4, e4, i4, r4, -, p4, l4⟩ := step_hidden i3 hb3 i
  obtain ⟨d4', hd4', -, -, k4, k4n, -⟩ := values_ok E W3 E.names (fun m hm => (hb3 m hm).imp fun _ hx => hx.1)
  rw [hd4] at hd4'
  cases hd4'
  have hlat4 : dget (W4.tabs i).latest n = some x := by
    rw [l4, dget_foldl_dset _ _ _ (k4n hnd), hl3]
    rcases hdn : dget d4 n with _ | y
    · exact hlat1
    · have := k4 n y hdn
      rw [hp3, g3, if_pos rfl, hz] at this
      obtain ⟨hy, hyn⟩ := this
      cases hy
      rw [hzn] at hyn
      cases hyn
  have hb4 : Readable E (fun _ => True) W4 := by intro m hm; rw [r4]; exact hb3 m hm
  -- the old value comes back
  obtain ⟨q1, i5, q3, q4, -, q6⟩ := write_ok i4
    (act := fun j m => j ≠ i ∧ (Act E st j m ∨ (j = i ∧ m ∈ E.names)))
    (by rintro j m ⟨_, h | h⟩; exacts [h.2, h.2]) (E.prim n) old t' (fun m hm hp => (hfold m hm hp).imp fun _ hx => hx.1)
  have e5 : step E W4 (.write (E.prim n) old t') = ((write E W4 (E.prim n) old t').1, [], none) := by
    simp only [step, q1]
  generalize (write E W4 (E.prim n) old t').1 = W5 at *
  have hb5 : Readable E (fun _ => True) W5 := by
    intro m hm
    rw [q3]
    by_cases hp : E.prim m = E.prim n
    · rw [if_pos hp]; exact hfold m hm hp
    · rw [if_neg hp]; exact hb4 m hm
  have hraw5 : (W5.prims (E.prim n)).raw = old := by rw [q3, if_pos rfl, hkeep]
  -- shown again
  obtain ⟨d6, W6, hd6, e6, i6, r6, p6, -, -⟩ := step_shown hnd i5 hb5 i (fun m hm => hm.1 rfl)
  obtain ⟨d6', hd6', k6, -, -, k6n, -⟩ := values_ok E W5 E.names (fun m hm => (hb5 m hm).imp fun _ hx => hx.1)
  rw [hd6] at hd6'
  cases hd6'
  have hpts6 : (W6.tabs i).points = [] := by
    rw [p6]
    exact i5.quiet i (fun m hm => hm.1 rfl)
  have e7 : step E W6 (.frame i) = (W6, [], none) := by simp only [step, hpts6, if_true]
  simp only [run, e1, e2, e3, e4, e5, e6, e7, List.nil_append, List.append_nil, Option.toList]
  refine ⟨by trivial, hpts6, ?_, ?_⟩
  · rw [r6, hraw5]; exact hx
  · unfold view
    rw [List.foldl_append, List.foldl_append, List.singleton_append, List.foldl_cons,
      see_shown i _ d6 _ (k6n hnd) n x (k6 n x hn (by rw [hraw5]; exact hx) hxn), q4, if_pos hlat4]
    simp only [see, if_true]
    have hpe : (dget (W2.tabs i).points n).getD [] = [(z, t)] := hpend
    rw [hpe]
    rfl

/-! ### Cases -/

namespace Case

/-- Two enumerated values, an integer channel, and two bit-fields of one group; integers below zero stand for
NaN. -/
def env : Env Int (String ⊕ Int) where
  names := ["mode", "volts", "low", "high"]
  prim n := if n = "mode" then 0 else if n = "volts" then 1 else 2
  render n r :=
    if n = "mode" then (if r = 0 then some (.inl "off") else if r = 1 then some (.inl "on") else none)
    else if n = "volts" then some (.inr r)
    else if n = "low" then some (.inr (r % 2))
    else some (.inr (r / 2 % 2))
  store p v := if p = 2 then v % 4 else v
  nan
    | .inl _ => false
    | .inr r => r < 0

/-- Two browsers; the second joins late and leaves early. -/
def ops : List (Op Int) :=
  [.shown 0, .write 1 5 10, .write 2 7 11, .shown 1, .frame 0, .write 1 5 12, .write 0 1 13, .frame 1, .hidden 1,
    .write 1 6 14, .frame 0]

theorem fits (v : Int) (p : Nat) (h : p = 0 → v = 0 ∨ v = 1) (h' : p = 1 → 0 ≤ v) :
    Fits env (fun x => env.nan x = false) p (env.store p v) := by
  intro n hn hp
  simp only [env, List.mem_cons, List.not_mem_nil, or_false] at hn
  rcases hn with rfl | rfl | rfl | rfl
  · have : p = 0 := by simpa [env] using hp.symm
    subst this
    rcases h rfl with rfl | rfl
    · exact ⟨.inl "off", by simp [env], rfl⟩
    · exact ⟨.inl "on", by simp [env], rfl⟩
  · have : p = 1 := by simpa [env] using hp.symm
    subst this
    exact ⟨.inr v, by simp [env], by simpa [env] using h' rfl⟩
  · have : p = 2 := by simpa [env] using hp.symm
    subst this
    exact ⟨.inr (v % 4 % 2), by simp [env], by simp [env]; omega⟩
  · have : p = 2 := by simpa [env] using hp.symm
    subst this
    exact ⟨.inr (v % 4 / 2 % 2), by simp [env], by simp [env]; omega⟩

theorem startFits : StartFit env (fun x => env.nan x = false) (fun _ => 0) := by
  intro p
  have := fits 0 p (fun _ => .inl rfl) (fun _ => by omega)
  have h0 : env.store p 0 = 0 := by simp [env]
  rwa [h0] at this

theorem opsFit : AllFit env (fun x => env.nan x = false) ops := by
  intro p v t h
  simp only [ops, List.mem_cons, Op.write.injEq, List.not_mem_nil, or_false, reduceCtorEq, false_or] at h
  rcases h with ⟨rfl, rfl, _⟩ | ⟨rfl, rfl, _⟩ | ⟨rfl, rfl, _⟩ | ⟨rfl, rfl, _⟩ | ⟨rfl, rfl, _⟩ <;>
    exact fits _ _ (by omega) (by omega)

/-- The first browser got every change once, the second only those it was there for. -/
example : delivered 0 "volts" (run env (start fun _ => 0) ops).2.1 = [(.inr 5, 10), (.inr 6, 14)] := by decide +kernel
example : delivered 0 "high" (run env (start fun _ => 0) ops).2.1 = [(.inr 1, 11)] := by decide +kernel
example : delivered 1 "mode" (run env (start fun _ => 0) ops).2.1 = [(.inl "on", 13)] := by decide +kernel
example : changes env 1 0 ops = [(5, 10), (6, 14)] := by decide +kernel

/-- The hypotheses of `C69_current_partial` hold for this run, and what the first browser shows. -/
example : (follow true atStart ops).map (fun st => (st 0, st 1)) = some (.shown true, .hidden) := by decide +kernel
example : ["mode", "volts", "low", "high"].map (view 0 (run env (start fun _ => 0) ops).2.1) =
    [some (.inl "on"), some (.inr 6), some (.inr 1), some (.inr 1)] := by decide +kernel
example (p : Nat) (v : Int) : env.store p (env.store p v) = env.store p v := by
  simp only [env]
  split
  · omega
  · rfl

/-- One callback for each name of the tab that is shown. -/
example : (List.range 3).map (fun p => (((run env (start fun _ => 0) ops).1.prims p).cbs)) =
    [[(0, (0, "mode"))], [(0, (0, "volts"))], [(0, (0, "low")), (1, (0, "high"))]] := by decide +kernel

/-- The stale value, in full. -/
example : view 0 (run env (start fun _ => 0) [.shown 0, .frame 0, .write 1 5 10, .hidden 0, .shown 0, .frame 0]).2.1
    "volts" = some (.inr 0) := by decide +kernel

/-- The unnamed value, in full. -/
example : (run env (start fun _ => 0) [.shown 0, .write 0 2 10, .hidden 0]).2.2 = [.key, .key] := by decide +kernel

/-- Shown twice, in full: two points for one change, and one for the hidden tab. -/
example : (pending (run env (start fun _ => 0) [.shown 0, .shown 0, .write 1 5 10]).1 0 "volts",
    pending (run env (start fun _ => 0) [.shown 0, .shown 0, .hidden 0, .write 1 5 10]).1 0 "volts") =
    ([(.inr 5, 10), (.inr 5, 10)], [(.inr 5, 10)]) := by decide +kernel

/-- Hidden first, and NaN, in full. -/
example : view 0 (run env (start fun _ => 0) [.hidden 0, .shown 0, .frame 0]).2.1 "volts" = none := by decide +kernel
example : view 0 (run env (start fun _ => 0) [.shown 0, .write 1 (-1) 1, .frame 0, .hidden 0, .write 1 0 2, .shown 0,
    .frame 0]).2.1 "volts" = some (.inr (-1)) := by decide +kernel

end Case

end Verif.Tabs
