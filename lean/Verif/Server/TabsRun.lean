import Verif.Server.TabsProps
/-!
C69: hiding, whole operations and runs.
-/
set_option linter.unusedSectionVars false

namespace Verif.Tabs

open Verif.Environment (mem_dget dset_nodup)

variable {R V : Type} [DecidableEq R] [DecidableEq V]

/-! ### Hiding -/

theorem removeAll_ok (prims : Nat → Prim R) (of cb : List (String × Nat))
    (hk : ∀ q ∈ cb, ∃ p, dget of q.1 = some p) :
    (removeAll prims of cb).2 = none ∧
    ∀ p, ((removeAll prims of cb).1 p).raw = (prims p).raw ∧ ((removeAll prims of cb).1 p).next = (prims p).next ∧
      ((removeAll prims of cb).1 p).stamp = (prims p).stamp ∧
      ((removeAll prims of cb).1 p).cbs = (prims p).cbs.filter
        (fun q => cb.all (fun c => !(decide (dget of c.1 = some p) && c.2 == q.1))) := by
  induction cb generalizing prims with
  | nil => exact ⟨rfl, fun p => ⟨rfl, rfl, rfl, (List.filter_eq_self.mpr (by simp)).symm⟩⟩
  | cons c cb ih =>
    obtain ⟨n, id⟩ := c
    obtain ⟨p0, hp0⟩ := hk (n, id) (by simp)
    have hstep : removeAll prims of ((n, id) :: cb) = removeAll (upd prims p0 ((prims p0).remove id)) of cb := by
      simp only [removeAll, hp0]
    rw [hstep]
    obtain ⟨g1, g2⟩ := ih (upd prims p0 ((prims p0).remove id)) (fun q hq => hk q (by simp [hq]))
    refine ⟨g1, fun p => ?_⟩
    obtain ⟨a, b, b', c⟩ := g2 p
    by_cases hp : p = p0
    · subst hp
      rw [upd_self] at a b b' c
      refine ⟨a, b, b', ?_⟩
      rw [c]
      simp only [Prim.remove, List.filter_filter, List.all_cons, hp0]
      apply List.filter_congr
      intro q _
      by_cases hq : q.1 = id
      · simp [hq]
      · have h1 : (q.1 != id) = true := by simpa using hq
        have h2 : (id == q.1) = false := by simpa using Ne.symm hq
        simp [h1, h2]
    · rw [upd_ne _ _ hp] at a b b' c
      refine ⟨a, b, b', ?_⟩
      rw [c]
      apply List.filter_congr
      intro q _
      have : ¬ (dget of n = some p) := by rw [hp0]; simpa using Ne.symm hp
      simp [this]

/-- After `clear_telemetry` tab `i` observes nothing, and nothing else has changed. -/
theorem clear_ok {E : Env R V} {act : Nat → String → Prop} {W : World R V} (h : Inv E act W) (i : Nat) :
    (clearTelemetry W i).2 = none ∧ Inv E (fun j m => j ≠ i ∧ act j m) (clearTelemetry W i).1 ∧
    (∀ p, ((clearTelemetry W i).1.prims p).raw = (W.prims p).raw) ∧
    (∀ j, j ≠ i → (clearTelemetry W i).1.tabs j = W.tabs j) ∧
    ((clearTelemetry W i).1.tabs i).points = [] ∧
    ((clearTelemetry W i).1.tabs i).latest = (W.tabs i).latest := by
  obtain ⟨g1, g2⟩ := removeAll_ok W.prims (W.tabs i).primitives (W.tabs i).callbacks (by
    intro q hq
    exact ⟨_, (h.keys i q.1 q.2 (mem_dget (h.dict i) hq)).2⟩)
  have he : clearTelemetry W i = (⟨(removeAll W.prims (W.tabs i).primitives (W.tabs i).callbacks).1,
      upd W.tabs i ⟨(W.tabs i).shown, [], [], [], (W.tabs i).latest⟩⟩, none) := by
    rcases hr : removeAll W.prims (W.tabs i).primitives (W.tabs i).callbacks with ⟨ps, _ | e⟩
    · simp only [clearTelemetry, hr]
    · rw [hr] at g1; cases g1
  rw [he]
  -- which callbacks stay
  have hstay : ∀ p q, q ∈ ((removeAll W.prims (W.tabs i).primitives (W.tabs i).callbacks).1 p).cbs ↔
      q ∈ (W.prims p).cbs ∧ q.2.1 ≠ i := by
    intro p q
    rw [(g2 p).2.2.2, List.mem_filter]
    refine and_congr_right fun hq => ?_
    obtain ⟨id, j, m⟩ := q
    simp only [List.all_eq_true, Bool.not_eq_true', Bool.and_eq_false_iff, decide_eq_false_iff_not,
      beq_eq_false_iff_ne]
    have hb := h.back p id j m hq
    constructor
    · rintro hall rfl
      rcases hall (m, id) (dget_mem hb.2) with hc | hc
      · exact hc (by rw [(h.keys _ _ _ hb.2).2, hb.1])
      · exact hc rfl
    · rintro hj ⟨m', id'⟩ hc
      by_cases hid : id' = id
      · subst hid
        left
        intro hp
        have hk := mem_dget (h.dict i) hc
        have hk2 := h.keys i m' id' hk
        obtain ⟨id2, ha, hl⟩ := h.live i m' hk2.1
        rw [hk] at ha
        cases ha
        rw [hk2.2] at hp
        cases hp
        have := h.unique hl hq
        cases this
        exact hj rfl
      · right; exact hid
  refine ⟨rfl, ?_, fun p => (g2 p).1, fun j hj => upd_ne _ _ hj, by simp only [upd_self], by simp only [upd_self]⟩
  constructor
  · intro p q hq
    dsimp only at hq ⊢
    rw [(g2 p).2.1]
    exact h.fresh p q ((hstay p q).mp hq).1
  · intro p
    dsimp only
    rw [(g2 p).2.2.2]
    exact (h.nodup p).sublist (List.filter_sublist.map _)
  · rintro j m ⟨hj, ha⟩
    obtain ⟨id, a, b⟩ := h.live j m ha
    refine ⟨id, ?_, ?_⟩
    · dsimp only
      rw [upd_ne _ _ hj]
      exact a
    · exact (hstay _ _).mpr ⟨b, hj⟩
  · intro j m id hd
    dsimp only at hd ⊢
    by_cases hj : j = i
    · subst hj
      rw [upd_self] at hd
      simp [dget_nil] at hd
    · rw [upd_ne _ _ hj] at hd ⊢
      exact ⟨⟨hj, (h.keys _ _ _ hd).1⟩, (h.keys _ _ _ hd).2⟩
  · intro p id j m hm
    have hm' := (hstay p _).mp hm
    have hb := h.back p id j m hm'.1
    dsimp only
    rw [upd_ne _ _ hm'.2]
    exact hb
  · intro j
    dsimp only
    by_cases hj : j = i
    · subst hj; rw [upd_self]; simp
    · rw [upd_ne _ _ hj]; exact h.dict j
  · intro j ha
    dsimp only
    by_cases hj : j = i
    · subst hj; rw [upd_self]
    · rw [upd_ne _ _ hj]
      exact h.quiet j (fun n hn => ha n ⟨hj, hn⟩)

/-! ### One operation -/

/-- The tabs that are shown observe every name. -/
def Act (E : Env R V) (st : Nat → Status) (i : Nat) (n : String) : Prop :=
  (st i).isShown = true ∧ n ∈ E.names

/-- Every value can be shown, as a value that is `ok`. -/
def Readable (E : Env R V) (ok : V → Prop) (W : World R V) : Prop :=
  ∀ n ∈ E.names, ∃ x, E.render n (W.prims (E.prim n)).raw = some x ∧ ok x

theorem mark_inv {E : Env R V} {act : Nat → String → Prop} {W : World R V} (h : Inv E act W) (i : Nat)
    (b : Bool) : Inv E act (mark W i b) := by
  refine h.transfer (fun p => ⟨rfl, rfl⟩) ?_ ?_
  · intro j
    by_cases hj : j = i
    · subst hj; simp [mark, upd_self]
    · simp [mark, upd_ne _ _ hj]
  · intro j hp _
    by_cases hj : j = i
    · subst hj; simpa [mark, upd_self] using hp
    · simpa [mark, upd_ne _ _ hj] using hp

theorem mark_near (W : World R V) (i : Nat) (b : Bool) : Near W (mark W i b) where
  raw p := rfl
  points j := by
    by_cases hj : j = i
    · subst hj; simp [mark, upd_self]
    · simp [mark, upd_ne _ _ hj]
  latest j := by
    by_cases hj : j = i
    · subst hj; simp [mark, upd_self]
    · simp [mark, upd_ne _ _ hj]

theorem saveLatest_inv {E : Env R V} {act : Nat → String → Prop} {W : World R V} (h : Inv E act W) (i : Nat)
    (d : List (String × V)) : Inv E act (saveLatest W i d) := by
  refine h.transfer (fun p => ⟨rfl, rfl⟩) ?_ ?_
  · intro j
    by_cases hj : j = i
    · subst hj; simp [saveLatest, upd_self]
    · simp [saveLatest, upd_ne _ _ hj]
  · intro j hp _
    by_cases hj : j = i
    · subst hj; simpa [saveLatest, upd_self] using hp
    · simpa [saveLatest, upd_ne _ _ hj] using hp

theorem saveLatest_points (W : World R V) (i : Nat) (d : List (String × V)) (j : Nat) :
    ((saveLatest W i d).tabs j).points = (W.tabs j).points := by
  by_cases hj : j = i
  · subst hj; simp [saveLatest, upd_self]
  · simp [saveLatest, upd_ne _ _ hj]

/-- What `shown` does to a tab that is not shown. -/
theorem step_shown {E : Env R V} (hnd : E.names.Nodup) {act : Nat → String → Prop} {W : World R V}
    (h : Inv E act W) {ok : V → Prop} (hr : Readable E ok W) (i : Nat) (hi : ∀ n, ¬ act i n) :
    ∃ d W', values E W E.names = .ok d ∧
      step E W (.shown i) = (W', if same d (W.tabs i).latest then [] else
        [(i, .values (toSend (W.tabs i).latest d))], none) ∧
      Inv E (fun j m => act j m ∨ (j = i ∧ m ∈ E.names)) W' ∧
      (∀ p, (W'.prims p).raw = (W.prims p).raw) ∧ (∀ j, (W'.tabs j).points = (W.tabs j).points) ∧
      (∀ j, j ≠ i → (W'.tabs j).latest = (W.tabs j).latest) ∧
      (W'.tabs i).latest = d.foldl (fun l q => dset l q.1 q.2) (W.tabs i).latest := by
  obtain ⟨d, hd, _⟩ := values_ok E W E.names (fun n hn => (hr n hn).imp fun _ hx => hx.1)
  have hd' : values E (mark W i true) E.names = .ok d := (values_raw E W (mark W i true) (fun _ => rfl) _).trans hd
  have hm := mark_inv h i true
  have hs := setups_inv i E.names hnd hm (fun n _ => hi n)
  have hnear := (mark_near W i true).trans (setups_near E i E.names (mark W i true))
  refine ⟨d, saveLatest (E.names.foldl (fun w n => setup E w i n) (mark W i true)) i d, hd, ?_,
    saveLatest_inv hs i d, hnear.raw, ?_, ?_, ?_⟩
  · simp only [step, hd', (mark_near W i true).latest]
  · intro j; rw [saveLatest_points]; exact hnear.points j
  · intro j hj
    simp only [saveLatest, upd_ne _ _ hj]
    exact hnear.latest j
  · simp only [saveLatest, upd_self]
    rw [hnear.latest i]

/-- What `hidden` does. -/
theorem step_hidden {E : Env R V} {act : Nat → String → Prop} {W : World R V}
    (h : Inv E act W) {ok : V → Prop} (hr : Readable E ok W) (i : Nat) :
    ∃ d W', values E W E.names = .ok d ∧ step E W (.hidden i) = (W', [], none) ∧
      Inv E (fun j m => j ≠ i ∧ act j m) W' ∧
      (∀ p, (W'.prims p).raw = (W.prims p).raw) ∧ (∀ j, j ≠ i → W'.tabs j = W.tabs j) ∧
      (W'.tabs i).points = [] ∧
      (W'.tabs i).latest = d.foldl (fun l q => dset l q.1 q.2) (W.tabs i).latest := by
  obtain ⟨d, hd, _⟩ := values_ok E W E.names (fun n hn => (hr n hn).imp fun _ hx => hx.1)
  have hd' : values E (mark W i false) E.names = .ok d := (values_raw E W (mark W i false) (fun _ => rfl) _).trans hd
  have hm := mark_inv h i false
  obtain ⟨g1, g2, g3, g4, g5, g6⟩ := clear_ok hm i
  rcases hc : clearTelemetry (mark W i false) i with ⟨W2, _ | e⟩
  · rw [hc] at g1 g2 g3 g4 g5 g6
    refine ⟨d, saveLatest W2 i d, hd, ?_, saveLatest_inv g2 i d, g3, ?_, ?_, ?_⟩
    · simp only [step, hd', hc]
    · intro j hj
      have : (saveLatest W2 i d).tabs j = W2.tabs j := by simp only [saveLatest, upd_ne _ _ hj]
      rw [this, g4 j hj]
      simp only [mark, upd_ne _ _ hj]
    · rw [saveLatest_points]; exact g5
    · simp only [saveLatest, upd_self]
      dsimp only at g6
      rw [g6, (mark_near W i false).latest]
  · rw [hc] at g1; cases g1

theorem Act.upd_shown {E : Env R V} {st : Nat → Status} {i : Nat} {s : Status} (hs : s.isShown = true)
    (hi : (st i).isShown = false) (j : Nat) (m : String) :
    (Act E st j m ∨ (j = i ∧ m ∈ E.names)) ↔ Act E (upd st i s) j m := by
  unfold Act
  by_cases hj : j = i
  · subst hj; rw [upd_self]; simp [hi, hs]
  · rw [upd_ne _ _ hj]; simp [hj]

theorem Act.upd_off {E : Env R V} {st : Nat → Status} {i : Nat} {s : Status} (hs : s.isShown = false)
    (j : Nat) (m : String) : (j ≠ i ∧ Act E st j m) ↔ Act E (upd st i s) j m := by
  unfold Act
  by_cases hj : j = i
  · subst hj; rw [upd_self]; simp [hs]
  · rw [upd_ne _ _ hj]; simp [hj]

theorem Act.same {E : Env R V} {st st' : Nat → Status} (hs : ∀ i, (st' i).isShown = (st i).isShown)
    (j : Nat) (m : String) : Act E st j m ↔ Act E st' j m := by
  unfold Act; rw [hs]

/-- One operation of a browser that follows the protocol keeps the invariant and raises nothing. -/
theorem step_inv {E : Env R V} (hnd : E.names.Nodup) {ok : V → Prop} {strict : Bool} {st st' : Nat → Status}
    {W : World R V} (h : Inv E (Act E st) W) (hr : Readable E ok W) (op : Op R)
    (hf : ∀ p v t, op = .write p v t → Fits E ok p (E.store p v)) (hfol : follow1 strict st op = some st') :
    Inv E (Act E st') (step E W op).1 ∧ Readable E ok (step E W op).1 ∧ (step E W op).2.2 = none := by
  cases op with
  | write p v t =>
    have hf := hf p v t rfl
    obtain ⟨g1, g2, g3, -⟩ := write_ok h (fun _ _ ha => ha.2) p v t (fun n hn hp => (hf n hn hp).imp fun _ hx => hx.1)
    simp only [follow1, Option.some.injEq] at hfol
    refine ⟨?_, ?_, g1⟩
    · refine (Inv.congr (b := Act E st') g2 (Act.same ?_))
      intro i
      rw [← hfol]
      dsimp only
      cases st i <;> rfl
    · intro n hn
      show ∃ x, E.render n ((write E W p v t).1.prims (E.prim n)).raw = some x ∧ ok x
      rw [g3]
      by_cases hp : E.prim n = p
      · rw [if_pos hp]; exact hf n hn hp
      · rw [if_neg hp]; exact hr n hn
  | shown i =>
    simp only [follow1] at hfol
    by_cases hi : st i = .hidden
    · rw [if_pos hi] at hfol
      cases hfol
      have hoff : (st i).isShown = false := by rw [hi]; rfl
      obtain ⟨d, W', _, he, h1, h2, _⟩ := step_shown hnd h hr i (by rintro n ⟨ha, _⟩; rw [hoff] at ha; cases ha)
      rw [he]
      refine ⟨h1.congr (Act.upd_shown rfl hoff), ?_, rfl⟩
      intro n hn
      rw [h2]
      exact hr n hn
    · rw [if_neg hi] at hfol; cases hfol
  | hidden i =>
    obtain ⟨d, W', _, he, h1, h2, _⟩ := step_hidden h hr i
    have hst : st' = upd st i .hidden := by
      simp only [follow1] at hfol
      split at hfol
      · split at hfol
        · cases hfol
        · cases hfol; rfl
      · cases hfol
    rw [he, hst]
    refine ⟨h1.congr (Act.upd_off rfl), ?_, rfl⟩
    intro n hn
    rw [h2]
    exact hr n hn
  | frame i =>
    have hst : ∀ j, (st' j).isShown = (st j).isShown := by
      intro j
      simp only [follow1] at hfol
      split at hfol
      · rename_i hi
        cases hfol
        by_cases hj : j = i
        · subst hj; rw [upd_self, hi]; rfl
        · rw [upd_ne _ _ hj]
      · cases hfol; rfl
    by_cases hp : (W.tabs i).points = []
    · simp only [step, hp, if_true]
      exact ⟨h.congr (Act.same hst), hr, trivial⟩
    · simp only [step, hp, if_false]
      refine ⟨?_, hr, trivial⟩
      refine (h.congr (Act.same hst)).transfer (fun p => ⟨rfl, rfl⟩) ?_ ?_
      · intro j
        by_cases hj : j = i
        · subst hj; simp only [upd_self]; exact ⟨trivial, trivial⟩
        · simp only [upd_ne _ _ hj]; exact ⟨trivial, trivial⟩
      · intro j hq _
        by_cases hj : j = i
        · subst hj; simp only [upd_self]
        · simp only [upd_ne _ _ hj]; exact hq
  | close i =>
    simp only [follow1] at hfol
    by_cases hi : st i = .closed
    · rw [if_pos hi] at hfol; cases hfol
    · rw [if_neg hi] at hfol
      cases hfol
      obtain ⟨g1, g2, g3, _⟩ := clear_ok h i
      refine ⟨?_, ?_, g1⟩
      · exact Inv.congr (b := Act E (upd st i .closed)) g2 (Act.upd_off rfl)
      · intro n hn
        show ∃ x, E.render n ((clearTelemetry W i).1.prims (E.prim n)).raw = some x ∧ ok x
        rw [g3]
        exact hr n hn

/-! ### Runs -/

theorem run_append (E : Env R V) (W : World R V) (a b : List (Op R)) :
    run E W (a ++ b) = ((run E (run E W a).1 b).1, (run E W a).2.1 ++ (run E (run E W a).1 b).2.1,
      (run E W a).2.2 ++ (run E (run E W a).1 b).2.2) := by
  induction a generalizing W with
  | nil => simp [run]
  | cons op a ih => simp only [List.cons_append, run, ih, List.append_assoc]

theorem follow_append (strict : Bool) (st : Nat → Status) (a b : List (Op R)) :
    follow strict st (a ++ b) = (follow strict st a).bind (fun s => follow strict s b) := by
  induction a generalizing st with
  | nil => simp [follow]
  | cons op a ih =>
    simp only [List.cons_append, follow]
    cases follow1 strict st op with
    | none => rfl
    | some s => exact ih s

theorem run_inv {E : Env R V} (hnd : E.names.Nodup) {ok : V → Prop} {strict : Bool} (ops : List (Op R))
    {st st' : Nat → Status} {W : World R V} (h : Inv E (Act E st) W) (hr : Readable E ok W)
    (hf : AllFit E ok ops) (hfol : follow strict st ops = some st') :
    Inv E (Act E st') (run E W ops).1 ∧ Readable E ok (run E W ops).1 ∧ (run E W ops).2.2 = [] := by
  induction ops generalizing st W with
  | nil => cases hfol; exact ⟨h, hr, rfl⟩
  | cons op ops ih =>
    simp only [follow] at hfol
    rcases h1 : follow1 strict st op with _ | st1
    · rw [h1] at hfol; cases hfol
    · rw [h1] at hfol
      obtain ⟨a, b, c⟩ := step_inv hnd h hr op (fun p v t he => hf p v t (by simp [he])) h1
      obtain ⟨a', b', c'⟩ := ih a b (fun p v t hm => hf p v t (by simp [hm])) hfol
      exact ⟨a', b', by simp only [run, c, c']; rfl⟩

theorem start_inv (E : Env R V) (raw : Nat → R) : Inv E (Act E atStart) (start raw : World R V) where
  fresh p q hq := by simp [start] at hq
  nodup p := by simp [start]
  live i n ha := by cases ha.1
  keys i n id hd := by simp [start, Tab.create, dget_nil] at hd
  back p id i n hm := by simp [start] at hm
  dict i := by simp [start, Tab.create]
  quiet i _ := rfl

/-! ### Delivery -/

theorem delivered_append (i : Nat) (n : String) (a b : List (Nat × Msg V)) :
    delivered i n (a ++ b) = delivered i n a ++ delivered i n b := by simp [delivered]

/-- Operations that do not concern the state of tab `i`. -/
def Leaves (i : Nat) (op : Op R) : Prop := op ≠ .shown i ∧ op ≠ .hidden i ∧ op ≠ .close i

/-- What one operation adds to the points of a tab that is shown. -/
theorem step_delivers {E : Env R V} (hnd : E.names.Nodup) {ok : V → Prop} {strict : Bool} {st st' : Nat → Status}
    {W : World R V} (h : Inv E (Act E st) W) (hr : Readable E ok W) (op : Op R)
    (hf : ∀ p v t, op = .write p v t → Fits E ok p (E.store p v)) (hfol : follow1 strict st op = some st')
    (i : Nat) (hi : (st i).isShown = true) (hl : Leaves i op) (n : String) (hn : n ∈ E.names) :
    (st' i).isShown = true ∧
    (delivered i n (step E W op).2.1 ++ pending (step E W op).1 i n).map some =
      (pending W i n).map some ++ (changes E (E.prim n) (W.prims (E.prim n)).raw [op]).map
        (fun c => (E.render n c.1).map (fun x => (x, c.2))) ∧
    ∀ ops, changes E (E.prim n) (W.prims (E.prim n)).raw (op :: ops) =
      changes E (E.prim n) (W.prims (E.prim n)).raw [op] ++
      changes E (E.prim n) ((step E W op).1.prims (E.prim n)).raw ops := by
  cases op with
  | write p v t =>
    have hf := hf p v t rfl
    obtain ⟨g1, g2, g3, g4, g5, g6⟩ := write_ok h (fun _ _ ha => ha.2) p v t
      (fun n hn hp => (hf n hn hp).imp fun _ hx => hx.1)
    simp only [follow1, Option.some.injEq] at hfol
    have hraw : ((step E W (.write p v t)).1.prims (E.prim n)).raw =
        if E.prim n = p then E.store p v else (W.prims (E.prim n)).raw := g3 _
    have hpend : pending (step E W (.write p v t)).1 i n = pending (write E W p v t).1 i n := rfl
    refine ⟨?_, ?_, ?_⟩
    · rw [← hfol]
      dsimp only
      cases hsi : st i <;> rw [hsi] at hi <;> first | rfl | cases hi
    · rw [hpend]
      by_cases hp : p = E.prim n
      · by_cases hv : (W.prims p).raw = v
        · rw [g6 i n (fun _ _ => hv)]
          subst hp
          simp [step, delivered, changes, hv]
        · obtain ⟨x, hx, _⟩ := hf n hn hp.symm
          rw [g5 i n x ⟨hi, hn⟩ hx hp.symm hv]
          subst hp
          simp [step, delivered, changes, hv, hx]
      · rw [g6 i n (fun _ hc => absurd hc.symm hp)]
        simp [step, delivered, changes, hp]
    · intro ops
      rw [hraw]
      by_cases hp : p = E.prim n
      · subst hp; simp [changes]
      · simp [changes, hp, Ne.symm hp]
  | shown j =>
    have hj : j ≠ i := by rintro rfl; exact hl.1 rfl
    simp only [follow1] at hfol
    by_cases hj0 : st j = .hidden
    · rw [if_pos hj0] at hfol
      cases hfol
      have hoff : (st j).isShown = false := by rw [hj0]; rfl
      obtain ⟨d, W', _, he, h1, h2, h3, _⟩ := step_shown hnd h hr j (by rintro n ⟨ha, _⟩; rw [hoff] at ha; cases ha)
      rw [he]
      refine ⟨by rw [upd_ne _ _ (Ne.symm hj)]; exact hi, ?_, ?_⟩
      · have : pending W' i n = pending W i n := by simp only [pending, h3]
        dsimp only
        rw [this]
        have : delivered i n (if same d (W.tabs j).latest = true then ([] : List (Nat × Msg V)) else
            [(j, .values (toSend (W.tabs j).latest d))]) = [] := by
          split <;> simp [delivered, brings, hj]
        rw [this]
        simp [changes]
      · intro ops
        dsimp only
        rw [h2]
        simp [changes]
    · rw [if_neg hj0] at hfol; cases hfol
  | hidden j =>
    have hj : j ≠ i := by rintro rfl; exact hl.2.1 rfl
    obtain ⟨d, W', _, he, h1, h2, h3, _⟩ := step_hidden h hr j
    have hst : st' = upd st j .hidden := by
      simp only [follow1] at hfol
      split at hfol
      · split at hfol
        · cases hfol
        · cases hfol; rfl
      · cases hfol
    rw [he, hst]
    refine ⟨by rw [upd_ne _ _ (Ne.symm hj)]; exact hi, ?_, ?_⟩
    · have : pending W' i n = pending W i n := by simp only [pending, h3 i (Ne.symm hj)]
      dsimp only
      rw [this]
      simp [changes, delivered]
    · intro ops
      dsimp only
      rw [h2]
      simp [changes]
  | frame j =>
    refine ⟨?_, ?_, ?_⟩
    · simp only [follow1] at hfol
      split at hfol
      · cases hfol
        by_cases hj : i = j
        · subst hj; rw [upd_self]; rfl
        · rw [upd_ne _ _ hj]; exact hi
      · cases hfol; exact hi
    · by_cases hp : (W.tabs j).points = []
      · simp [step, hp, delivered, changes]
      · by_cases hj : i = j
        · subst hj
          simp [step, hp, delivered, brings, changes, pending, upd_self, dget_nil]
        · have : (j == i) = false := by simpa using Ne.symm hj
          simp [step, hp, delivered, brings, changes, pending, upd_ne _ _ hj, Ne.symm hj]
    · intro ops
      have : ((step E W (.frame j)).1.prims (E.prim n)).raw = (W.prims (E.prim n)).raw := by
        by_cases hp : (W.tabs j).points = [] <;> simp [step, hp]
      rw [this]
      simp [changes]
  | close j =>
    have hj : j ≠ i := by rintro rfl; exact hl.2.2 rfl
    simp only [follow1] at hfol
    by_cases hj0 : st j = .closed
    · rw [if_pos hj0] at hfol; cases hfol
    · rw [if_neg hj0] at hfol
      cases hfol
      obtain ⟨g1, g2, g3, g4, _⟩ := clear_ok h j
      refine ⟨by rw [upd_ne _ _ (Ne.symm hj)]; exact hi, ?_, ?_⟩
      · have : pending (step E W (.close j)).1 i n = pending W i n := by
          show pending (clearTelemetry W j).1 i n = _
          simp only [pending, g4 i (Ne.symm hj)]
        rw [this]
        simp [step, changes, delivered]
      · intro ops
        have : ((step E W (.close j)).1.prims (E.prim n)).raw = (W.prims (E.prim n)).raw := g3 _
        rw [this]
        simp [changes]

theorem run_delivers {E : Env R V} (hnd : E.names.Nodup) {ok : V → Prop} {strict : Bool} (ops : List (Op R))
    {st st' : Nat → Status} {W : World R V} (h : Inv E (Act E st) W) (hr : Readable E ok W)
    (hf : AllFit E ok ops) (hfol : follow strict st ops = some st')
    (i : Nat) (hi : (st i).isShown = true) (hl : ∀ op ∈ ops, Leaves i op) (n : String) (hn : n ∈ E.names) :
    (delivered i n (run E W ops).2.1 ++ pending (run E W ops).1 i n).map some =
      (pending W i n).map some ++ (changes E (E.prim n) (W.prims (E.prim n)).raw ops).map
        (fun c => (E.render n c.1).map (fun x => (x, c.2))) := by
  induction ops generalizing st W with
  | nil => simp [run, delivered, changes]
  | cons op ops ih =>
    simp only [follow] at hfol
    rcases h1 : follow1 strict st op with _ | st1
    · rw [h1] at hfol; cases hfol
    · rw [h1] at hfol
      have hf1 : ∀ p v t, op = .write p v t → Fits E ok p (E.store p v) :=
        fun p v t he => hf p v t (by simp [he])
      obtain ⟨a, b, c⟩ := step_inv hnd h hr op hf1 h1
      obtain ⟨d1, d2, d3⟩ := step_delivers hnd h hr op hf1 h1 i hi (hl op (by simp)) n hn
      have := ih a b (fun p v t hm => hf p v t (by simp [hm])) hfol d1 (fun o ho => hl o (by simp [ho]))
      simp only [List.map_append] at this d2
      rw [d3]
      simp only [run, delivered_append, List.map_append, List.append_assoc]
      rw [this, ← List.append_assoc, d2, List.append_assoc]

end Verif.Tabs
