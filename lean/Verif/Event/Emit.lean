import Verif.Event.Parse
/-!
Model of the sending half of channel events: `PrimitiveEvent` of runtimepy/channel/event/__init__.py,
the callbacks of runtimepy/primitives/base.py 102–166 and the registration order of
runtimepy/channel/environment/telemetry.py 27–75 and runtimepy/channel/registry.py 141–165.

Emitters and primitives are numbered. Several emitters may watch one primitive (the fields of one
bit-fields primitive). Simplifications: the metrics of `_poll` (99–100) are left out here, all
emitters write to one stream, and writing to the stream does not fail.
-/
namespace Verif.Event

open Verif.Wire Verif.Message

/-- What does not change: the primitive an emitter watches, its identifier, whether its callback
forces (telemetry.py 58–62), and the kind of a primitive. How a primitive stores a value and when
Python finds `curr != new` (base.py 145) are parameters too. -/
structure Cfg where
  hdr : Hdr
  primOf : Nat → Nat
  ident : Nat → Int
  force : Nat → Bool
  kind : Nat → Kind
  store : Kind → Val → Val
  differs : Kind → Val → Val → Bool

/-- A primitive: its value, `last_updated_ns`, and its callbacks in order. -/
structure Pr where
  val : Val
  time : Int
  cbs : List Nat

/-- A `PrimitiveEvent`, event/__init__.py 21–34. -/
structure Em where
  prev : Int
  period : Int
  streaming : Bool

structure World where
  prim : Nat → Pr
  em : Nat → Em
  out : Bytes

def upd {α : Type} (f : Nat → α) (i : Nat) (x : α) : Nat → α := fun j => if j = i then x else f j

/-- `_poll`, event/__init__.py 70–102. -/
def World.poll (c : Cfg) (w : World) (i : Nat) (force : Bool) : World × Option PyErr :=
  let e := w.em i
  let p := w.prim (c.primOf i)
  if force ∨ p.time - e.prev ≥ e.period then
    let em := upd w.em i { e with prev := p.time }
    match Ev.bytes c.hdr ⟨c.ident i, p.time, c.kind (c.primOf i), p.val⟩ with
    | .error x => (⟨w.prim, em, w.out⟩, some x)
    | .ok b => (⟨w.prim, em, w.out ++ b⟩, none)
  else (w, none)

/-- The callbacks of a primitive, base.py 145–150: each polls its emitter. -/
def World.pollAll (c : Cfg) (w : World) : List Nat → World × Option PyErr
  | [] => (w, none)
  | i :: rest =>
    match w.poll c i (c.force i) with
    | (w, some x) => (w, some x)
    | (w, none) => w.pollAll c rest

/-- `set_value`, base.py 156–166. -/
def World.set (c : Cfg) (w : World) (j : Nat) (v : Val) (t : Int) : World × Option PyErr :=
  let p := w.prim j
  let w' : World := ⟨upd w.prim j ⟨c.store (c.kind j) v, t, p.cbs⟩, w.em, w.out⟩
  if c.differs (c.kind j) p.val v then w'.pollAll c p.cbs else (w', none)

/-- Entering `registered`, 41–65. -/
def World.enter (c : Cfg) (w : World) (i : Nat) : World × Option PyErr :=
  if (w.em i).streaming then (w, some .assertion)
  else
    let w1 : World := ⟨w.prim, upd w.em i { w.em i with prev := 0 }, w.out⟩
    match w1.poll c i false with
    | (w2, some x) => (w2, some x)
    | (w2, none) =>
      let p := w2.prim (c.primOf i)
      (⟨upd w2.prim (c.primOf i) { p with cbs := p.cbs ++ [i] }, upd w2.em i { w2.em i with streaming := true }, w2.out⟩, none)

/-- Leaving `registered` normally, 66–68 (of an emitter that was entered). -/
def World.leave (c : Cfg) (w : World) (i : Nat) : World :=
  if (w.em i).streaming then
    let p := w.prim (c.primOf i)
    ⟨upd w.prim (c.primOf i) { p with cbs := p.cbs.filter (· ≠ i) }, upd w.em i { w.em i with streaming := false }, w.out⟩
  else w

/-- Leaving `registered` by an exception: the generator ends at the `yield` (66) and nothing after
it runs. -/
def World.abort (w : World) (_ : Nat) : World := w

/-- `set_min_period`, 36–40, in nanoseconds. -/
def World.setPeriod (w : World) (i : Nat) (ns : Int) : World × Option PyErr :=
  if 0 < ns then (⟨w.prim, upd w.em i { w.em i with period := ns }, w.out⟩, none) else (w, some .assertion)

/-- What may happen. -/
inductive Op where
  | set (j : Nat) (v : Val) (t : Int)
  | enter (i : Nat)
  | leave (i : Nat)
  | period (i : Nat) (ns : Int)
  deriving DecidableEq, Repr

def World.step (c : Cfg) (w : World) : Op → World × Option PyErr
  | .set j v t => w.set c j v t
  | .enter i => w.enter c i
  | .leave i => (w.leave c i, none)
  | .period i ns => w.setPeriod i ns

/-- A history; a failing operation changes what it changed before it failed, and the history goes
on. -/
def World.run (c : Cfg) (w : World) : List Op → World
  | [] => w
  | op :: rest => ((w.step c op).1).run c rest

/-- Before anything is registered. -/
def World.start (val : Nat → Val) (time : Nat → Int) : World :=
  ⟨fun j => ⟨val j, time j, []⟩, fun _ => ⟨0, 0, false⟩, []⟩

/-! ### What should be recorded

Independent of callbacks and bytes: the emitters that are on, in the order they were switched on,
and per emitter the time of its last record. -/

structure Rec where
  val : Nat → Val
  time : Nat → Int
  period : Nat → Int
  last : Nat → Int
  on : List Nat
  log : List (Nat × Int × Val)

/-- Whether emitter `i` records a change at time `t`. -/
def Rec.due (c : Cfg) (r : Rec) (i : Nat) (t : Int) : Prop := c.force i = true ∨ r.period i ≤ t - r.last i

instance (c : Cfg) (r : Rec) (i : Nat) (t : Int) : Decidable (r.due c i t) := by unfold Rec.due; infer_instance

def Rec.step (c : Cfg) (r : Rec) : Op → Rec
  | .set j v t =>
    let w := c.store (c.kind j) v
    let due := if c.differs (c.kind j) (r.val j) v then r.on.filter (fun i => c.primOf i = j ∧ r.due c i t) else []
    { r with
      val := upd r.val j w, time := upd r.time j t
      last := fun i => if i ∈ due then t else r.last i
      log := r.log ++ due.map (fun i => (i, t, w)) }
  | .enter i =>
    if i ∈ r.on then r
    else
      let t := r.time (c.primOf i)
      if r.period i ≤ t then
        { r with on := r.on ++ [i], last := upd r.last i t, log := r.log ++ [(i, t, r.val (c.primOf i))] }
      else { r with on := r.on ++ [i], last := upd r.last i 0 }
  | .leave i => { r with on := r.on.filter (· ≠ i) }
  | .period i ns => if 0 < ns then { r with period := upd r.period i ns } else r

def Rec.run (c : Cfg) (r : Rec) : List Op → Rec
  | [] => r
  | op :: rest => (r.step c op).run c rest

def Rec.start (val : Nat → Val) (time : Nat → Int) : Rec := ⟨val, time, fun _ => 0, fun _ => 0, [], []⟩

/-- A recorded change as an event on the wire. -/
def Cfg.ev (c : Cfg) (x : Nat × Int × Val) : Ev := ⟨c.ident x.1, x.2.1, c.kind (c.primOf x.1), x.2.2⟩

/-- The identifiers fit (`init_header` asserts it, header.py 27–35), and stored values are values of
their kind. -/
structure Cfg.Ok (c : Cfg) : Prop where
  ident : ∀ i, Spec.lo c.hdr.ki ≤ c.ident i ∧ c.ident i ≤ Spec.hi c.hdr.ki
  store : ∀ k v, Spec.HasKind k (c.store k v)

/-- Clock readings that fit the header. -/
def Cfg.Time (c : Cfg) (t : Int) : Prop := Spec.lo c.hdr.kt ≤ t ∧ t ≤ Spec.hi c.hdr.kt

instance (c : Cfg) (t : Int) : Decidable (c.Time t) := by unfold Cfg.Time; infer_instance

def Op.TimeOk (c : Cfg) : Op → Prop
  | .set _ _ t => c.Time t
  | _ => True

/-! ### Refinement -/

structure Agree (c : Cfg) (w : World) (r : Rec) : Prop where
  prim : ∀ j, w.prim j = ⟨r.val j, r.time j, r.on.filter (fun i => c.primOf i = j)⟩
  prev : ∀ i, (w.em i).prev = r.last i
  period : ∀ i, (w.em i).period = r.period i
  streaming : ∀ i, (w.em i).streaming = decide (i ∈ r.on)
  nodup : r.on.Nodup
  val : ∀ j, Spec.HasKind (c.kind j) (r.val j)
  time : ∀ j, c.Time (r.time j)
  log : ∀ x ∈ r.log, c.Time x.2.1 ∧ Spec.HasKind (c.kind (c.primOf x.1)) x.2.2
  out : streamOf c.hdr (r.log.map c.ev) = .ok w.out

theorem streamOf_append (H : Hdr) (a b : List Ev) (s t : Bytes) (ha : streamOf H a = .ok s) (hb : streamOf H b = .ok t) :
    streamOf H (a ++ b) = .ok (s ++ t) := by
  induction a generalizing s with
  | nil => simp only [streamOf, Except.ok.injEq] at ha; subst ha; simpa using hb
  | cons e rest ih =>
    obtain ⟨x, y, hx, hy, rfl⟩ := streamOf_cons H e rest s ha
    rw [List.cons_append]
    simp only [streamOf]
    rw [hx]
    dsimp only
    rw [ih y hy]
    simp

/-- The bytes of a change that fits. -/
theorem ev_bytes (c : Cfg) (hc : c.Ok) (i : Nat) (t : Int) (v : Val) (ht : c.Time t)
    (hv : Spec.HasKind (c.kind (c.primOf i)) v) : ∃ b, (c.ev (i, t, v)).bytes c.hdr = .ok b := by
  obtain ⟨h, h1, -⟩ := header_spec c.hdr (c.ident i) t (hc.ident i) ht
  obtain ⟨b, b1, -⟩ := C01_all_kinds (c.kind (c.primOf i)) .network v hv
  exact ⟨h ++ b, by unfold Ev.bytes Cfg.ev; dsimp only; rw [h1, b1]⟩

/-- One poll writes at most one event. -/
theorem poll_spec (c : Cfg) (hc : c.Ok) (w : World) (i : Nat) (force : Bool) (ht : c.Time (w.prim (c.primOf i)).time)
    (hv : Spec.HasKind (c.kind (c.primOf i)) (w.prim (c.primOf i)).val) :
    ∃ b, (c.ev (i, (w.prim (c.primOf i)).time, (w.prim (c.primOf i)).val)).bytes c.hdr = .ok b
      ∧ w.poll c i force = (if force = true ∨ (w.em i).period ≤ (w.prim (c.primOf i)).time - (w.em i).prev then
          ⟨w.prim, upd w.em i { w.em i with prev := (w.prim (c.primOf i)).time }, w.out ++ b⟩ else w, none) := by
  obtain ⟨b, hb⟩ := ev_bytes c hc i _ _ ht hv
  refine ⟨b, hb, ?_⟩
  unfold World.poll
  dsimp only
  have hb' := hb
  unfold Cfg.ev at hb'
  dsimp only at hb'
  by_cases h : force = true ∨ (w.em i).period ≤ (w.prim (c.primOf i)).time - (w.em i).prev
  · rw [if_pos h, if_pos h, hb']
  · rw [if_neg h, if_neg h]

/-- The callbacks of one primitive, distinct emitters: those that are due write, in order. -/
theorem pollAll_spec (c : Cfg) (hc : c.Ok) (j : Nat) (l : List Nat) (hl : ∀ i ∈ l, c.primOf i = j) (hn : l.Nodup) (w : World)
    (ht : c.Time (w.prim j).time) (hv : Spec.HasKind (c.kind j) (w.prim j).val) :
    ∃ b, streamOf c.hdr ((l.filter (fun i => c.force i = true ∨ (w.em i).period ≤ (w.prim j).time - (w.em i).prev)).map
          (fun i => c.ev (i, (w.prim j).time, (w.prim j).val))) = .ok b
      ∧ (w.pollAll c l).2 = none ∧ (w.pollAll c l).1.prim = w.prim ∧ (w.pollAll c l).1.out = w.out ++ b
      ∧ ∀ i, (w.pollAll c l).1.em i
          = if i ∈ l.filter (fun i => c.force i = true ∨ (w.em i).period ≤ (w.prim j).time - (w.em i).prev)
            then { w.em i with prev := (w.prim j).time } else w.em i := by
  induction l generalizing w with
  | nil => exact ⟨[], rfl, rfl, rfl, by simp [World.pollAll], fun i => by simp [World.pollAll]⟩
  | cons i rest ih =>
    have hij := hl i List.mem_cons_self
    obtain ⟨hni, hnr⟩ := List.nodup_cons.mp hn
    obtain ⟨b, hb, hp⟩ := poll_spec c hc w i (c.force i) (by rw [hij]; exact ht) (by rw [hij]; exact hv)
    rw [hij] at hb hp
    simp only [World.pollAll]
    rw [hp]
    dsimp only
    by_cases hd : c.force i = true ∨ (w.em i).period ≤ (w.prim j).time - (w.em i).prev
    · rw [if_pos hd]
      obtain ⟨b', h1, h2, h3, h4, h5⟩ := ih (fun k hk => hl k (List.mem_cons_of_mem _ hk)) hnr
        ⟨w.prim, upd w.em i { w.em i with prev := (w.prim j).time }, w.out ++ b⟩ ht hv
      have hfilt : rest.filter (fun k => decide (c.force k = true ∨ ((upd w.em i { w.em i with prev := (w.prim j).time }) k).period
            ≤ (w.prim j).time - ((upd w.em i { w.em i with prev := (w.prim j).time }) k).prev))
          = rest.filter (fun k => decide (c.force k = true ∨ (w.em k).period ≤ (w.prim j).time - (w.em k).prev)) := by
        refine List.filter_congr (fun k hk => ?_)
        have : k ≠ i := fun h => hni (h ▸ hk)
        simp [upd, this]
      dsimp only at h1 h2 h3 h4 h5
      rw [hfilt] at h1 h5
      refine ⟨b ++ b', ?_, h2, h3, by rw [h4, List.append_assoc], fun k => ?_⟩
      · rw [List.filter_cons_of_pos (by simpa using hd), List.map_cons]
        simp only [streamOf]
        rw [hb]
        dsimp only
        rw [h1]
      · rw [h5 k, List.filter_cons_of_pos (by simpa using hd)]
        by_cases hk : k = i
        · subst hk
          have : k ∉ rest.filter (fun k => decide (c.force k = true ∨ (w.em k).period ≤ (w.prim j).time - (w.em k).prev)) :=
            fun h => hni (List.mem_filter.mp h).1
          rw [if_neg this, if_pos List.mem_cons_self]
          simp [upd]
        · simp only [upd, hk, if_false, List.mem_cons, false_or]
    · rw [if_neg hd]
      obtain ⟨b', h1, h2, h3, h4, h5⟩ := ih (fun k hk => hl k (List.mem_cons_of_mem _ hk)) hnr w ht hv
      rw [List.filter_cons_of_neg (by simpa using hd)]
      exact ⟨b', h1, h2, h3, h4, h5⟩

theorem agree_set (c : Cfg) (hc : c.Ok) (w : World) (r : Rec) (h : Agree c w r) (j : Nat) (v : Val) (t : Int) (ht : c.Time t) :
    (w.set c j v t).2 = none ∧ Agree c (w.set c j v t).1 (r.step c (.set j v t)) := by
  obtain ⟨hprim, hprev, hper, hstr, hnd, hval, htime, hlog, hout⟩ := h
  have hstore := hc.store (c.kind j) v
  have hval' : ∀ k, Spec.HasKind (c.kind k) (upd r.val j (c.store (c.kind j) v) k) := by
    intro k
    unfold upd
    split
    · rename_i hk; rw [hk]; exact hstore
    · exact hval k
  have htime' : ∀ k, c.Time (upd r.time j t k) := by
    intro k
    unfold upd
    split
    · exact ht
    · exact htime k
  have hprim' : ∀ k, upd w.prim j ⟨c.store (c.kind j) v, t, (w.prim j).cbs⟩ k
      = ⟨upd r.val j (c.store (c.kind j) v) k, upd r.time j t k, r.on.filter (fun i => c.primOf i = k)⟩ := by
    intro k
    unfold upd
    by_cases hk : k = j
    · subst hk; simp [hprim k]
    · simp [hk, hprim k]
  unfold World.set
  simp only [Rec.step]
  rw [show (w.prim j).val = r.val j by rw [hprim j]]
  by_cases hd : c.differs (c.kind j) (r.val j) v = true
  · rw [if_pos hd, if_pos hd]
    have hcbs : (w.prim j).cbs = r.on.filter (fun i => c.primOf i = j) := by rw [hprim j]
    obtain ⟨b, h1, h2, h3, h4, h5⟩ := pollAll_spec c hc j (w.prim j).cbs
      (by rw [hcbs]; intro i hi; simpa using (List.mem_filter.mp hi).2) (by rw [hcbs]; exact hnd.filter _)
      ⟨upd w.prim j ⟨c.store (c.kind j) v, t, (w.prim j).cbs⟩, w.em, w.out⟩ (by simpa [upd] using ht) (by simpa [upd] using hstore)
    have hpj : upd w.prim j ⟨c.store (c.kind j) v, t, (w.prim j).cbs⟩ j = ⟨c.store (c.kind j) v, t, (w.prim j).cbs⟩ := by simp [upd]
    dsimp only at h1 h2 h3 h4 h5
    simp only [hpj] at h1 h5
    have hfilt : (w.prim j).cbs.filter (fun i => decide (c.force i = true ∨ (w.em i).period ≤ t - (w.em i).prev))
        = r.on.filter (fun i => decide (c.primOf i = j ∧ r.due c i t)) := by
      rw [hcbs, List.filter_filter]
      refine List.filter_congr (fun i _ => ?_)
      rw [hper, hprev]
      rw [Bool.eq_iff_iff]
      simp only [Bool.and_eq_true, decide_eq_true_iff]
      exact and_comm
    rw [hfilt] at h1 h5
    refine ⟨h2, fun k => ?_, fun i => ?_, fun i => ?_, fun i => ?_, hnd, hval', htime', ?_, ?_⟩
    · rw [h3]; exact hprim' k
    · rw [h5 i]
      dsimp only
      split
      · rfl
      · exact hprev i
    · rw [h5 i]
      split <;> exact hper i
    · rw [h5 i]
      split <;> exact hstr i
    · intro x hx
      rcases List.mem_append.mp hx with hx | hx
      · exact hlog x hx
      · obtain ⟨i, hi, rfl⟩ := List.mem_map.mp hx
        have hi' := (List.mem_filter.mp hi).2
        simp only [decide_eq_true_eq] at hi'
        exact ⟨ht, by dsimp only; rw [hi'.1]; exact hstore⟩
    · dsimp only
      rw [h4, List.map_append]
      refine streamOf_append _ _ _ _ _ hout ?_
      rw [List.map_map]
      exact h1
  · rw [if_neg hd, if_neg hd]
    refine ⟨rfl, hprim', fun i => ?_, hper, hstr, hnd, hval', htime', ?_, ?_⟩
    · simp [hprev]
    · simpa using hlog
    · simpa using hout

theorem agree_enter (c : Cfg) (hc : c.Ok) (w : World) (r : Rec) (h : Agree c w r) (i : Nat) :
    Agree c (w.enter c i).1 (r.step c (.enter i)) := by
  obtain ⟨hprim, hprev, hper, hstr, hnd, hval, htime, hlog, hout⟩ := h
  unfold World.enter
  simp only [Rec.step]
  by_cases hi : i ∈ r.on
  · rw [if_pos (by rw [hstr i]; simpa using hi), if_pos hi]
    exact ⟨hprim, hprev, hper, hstr, hnd, hval, htime, hlog, hout⟩
  · rw [if_neg (by rw [hstr i]; simpa using hi), if_neg hi]
    obtain ⟨b, hb, hp⟩ := poll_spec c hc ⟨w.prim, upd w.em i { w.em i with prev := 0 }, w.out⟩ i false
      (by simp only [hprim]; exact htime _) (by simp only [hprim]; exact hval _)
    dsimp only at hp hb
    simp only [hprim (c.primOf i)] at hb
    have hemi : upd w.em i { w.em i with prev := 0 } i = { w.em i with prev := 0 } := by simp [upd]
    simp only [hemi, hprim (c.primOf i), Int.sub_zero] at hp
    rw [hp]
    simp only [hper i]
    have hon : ∀ j, (r.on ++ [i]).filter (fun k => decide (c.primOf k = j))
        = if j = c.primOf i then r.on.filter (fun k => decide (c.primOf k = j)) ++ [i] else r.on.filter (fun k => decide (c.primOf k = j)) := by
      intro j
      rw [List.filter_append]
      by_cases hj : j = c.primOf i
      · subst hj; simp
      · have : ¬ c.primOf i = j := fun h => hj h.symm
        simp [hj, this]
    have hprimE : ∀ j, upd w.prim (c.primOf i) ⟨r.val (c.primOf i), r.time (c.primOf i),
          r.on.filter (fun k => decide (c.primOf k = c.primOf i)) ++ [i]⟩ j
        = ⟨r.val j, r.time j, (r.on ++ [i]).filter (fun k => decide (c.primOf k = j))⟩ := by
      intro j
      rw [hon j]
      unfold upd
      by_cases hj : j = c.primOf i
      · subst hj; simp
      · simp [hj, hprim j]
    have hnd' : (r.on ++ [i]).Nodup := by
      rw [List.nodup_append]
      exact ⟨hnd, (List.nodup_cons.mpr ⟨List.not_mem_nil, List.nodup_nil⟩), fun a ha b hb => by
        rw [List.mem_singleton.mp hb]; exact fun e => hi (e ▸ ha)⟩
    by_cases hd : r.period i ≤ r.time (c.primOf i)
    · rw [if_pos (Or.inr hd), if_pos hd]
      dsimp only
      rw [hprim (c.primOf i)]
      dsimp only
      refine ⟨hprimE, fun k => ?_, fun k => ?_, fun k => ?_, hnd', hval, htime, ?_, ?_⟩
      · by_cases hk : k = i
        · subst hk; simp [upd]
        · simp [upd, hk, hprev]
      · by_cases hk : k = i
        · subst hk; simp [upd]
        · simp [upd, hk, hper]
      · by_cases hk : k = i
        · subst hk; simp [upd]
        · simp [upd, hk, hstr]
      · intro x hx
        rcases List.mem_append.mp hx with hx | hx
        · exact hlog x hx
        · rw [List.mem_singleton.mp hx]
          exact ⟨htime _, hval _⟩
      · dsimp only
        rw [List.map_append]
        refine streamOf_append _ _ _ _ _ hout ?_
        simp only [List.map_cons, List.map_nil, streamOf]
        rw [hb]
        simp
    · rw [if_neg (by simpa using hd), if_neg hd]
      dsimp only
      rw [hprim (c.primOf i)]
      dsimp only
      refine ⟨hprimE, fun k => ?_, fun k => ?_, fun k => ?_, hnd', hval, htime, hlog, hout⟩
      · by_cases hk : k = i
        · subst hk; simp [upd]
        · simp [upd, hk, hprev]
      · by_cases hk : k = i
        · subst hk; simp [upd]
        · simp [upd, hk, hper]
      · by_cases hk : k = i
        · subst hk; simp [upd]
        · simp [upd, hk, hstr]

theorem agree_leave (c : Cfg) (w : World) (r : Rec) (h : Agree c w r) (i : Nat) :
    Agree c (w.leave c i) (r.step c (.leave i)) := by
  obtain ⟨hprim, hprev, hper, hstr, hnd, hval, htime, hlog, hout⟩ := h
  unfold World.leave
  simp only [Rec.step]
  by_cases hi : i ∈ r.on
  · rw [if_pos (by rw [hstr i]; simpa using hi)]
    refine ⟨fun j => ?_, fun k => ?_, fun k => ?_, fun k => ?_, hnd.filter _, hval, htime, hlog, hout⟩
    · unfold upd
      by_cases hj : j = c.primOf i
      · subst hj
        simp only [if_true, hprim, List.filter_filter]
        congr 1
        refine List.filter_congr (fun k _ => ?_)
        rw [Bool.and_comm]
      · simp only [hj, if_false, hprim j, List.filter_filter]
        congr 1
        refine List.filter_congr (fun k _ => ?_)
        by_cases hk : c.primOf k = j
        · have : k ≠ i := fun e => hj (by rw [← hk, e])
          simp [hk, this]
        · simp [hk]
    · by_cases hk : k = i
      · subst hk; simp [upd, hprev]
      · simp [upd, hk, hprev]
    · by_cases hk : k = i
      · subst hk; simp [upd, hper]
      · simp [upd, hk, hper]
    · by_cases hk : k = i
      · subst hk; simp [upd]
      · simp [upd, hk, hstr]
  · rw [if_neg (by rw [hstr i]; simpa using hi)]
    have : r.on.filter (fun k => decide (k ≠ i)) = r.on := by
      rw [List.filter_eq_self]
      intro k hk
      simp only [decide_eq_true_eq]
      exact fun e => hi (e ▸ hk)
    rw [this]
    exact ⟨hprim, hprev, hper, hstr, hnd, hval, htime, hlog, hout⟩

theorem agree_step (c : Cfg) (hc : c.Ok) (w : World) (r : Rec) (h : Agree c w r) (op : Op) (ht : op.TimeOk c) :
    Agree c (w.step c op).1 (r.step c op) := by
  cases op with
  | set j v t => exact (agree_set c hc w r h j v t ht).2
  | enter i => exact agree_enter c hc w r h i
  | leave i => exact agree_leave c w r h i
  | period i ns =>
    obtain ⟨hprim, hprev, hper, hstr, hnd, hval, htime, hlog, hout⟩ := h
    simp only [World.step, World.setPeriod, Rec.step]
    split
    · refine ⟨hprim, fun k => ?_, fun k => ?_, fun k => ?_, hnd, hval, htime, hlog, hout⟩
      · by_cases hk : k = i
        · subst hk; simp [upd, hprev]
        · simp [upd, hk, hprev]
      · by_cases hk : k = i
        · subst hk; simp [upd]
        · simp [upd, hk, hper]
      · by_cases hk : k = i
        · subst hk; simp [upd, hstr]
        · simp [upd, hk, hstr]
    · exact ⟨hprim, hprev, hper, hstr, hnd, hval, htime, hlog, hout⟩

theorem agree_run (c : Cfg) (hc : c.Ok) (ops : List Op) (w : World) (r : Rec) (h : Agree c w r)
    (ht : ∀ op ∈ ops, op.TimeOk c) : Agree c (w.run c ops) (r.run c ops) := by
  induction ops generalizing w r with
  | nil => exact h
  | cons op rest ih =>
    exact ih _ _ (agree_step c hc w r h op (ht op List.mem_cons_self)) (fun o ho => ht o (List.mem_cons_of_mem _ ho))

theorem agree_start (c : Cfg) (val : Nat → Val) (time : Nat → Int) (hv : ∀ j, Spec.HasKind (c.kind j) (val j))
    (ht : ∀ j, c.Time (time j)) : Agree c (World.start val time) (Rec.start val time) :=
  ⟨fun _ => rfl, fun _ => rfl, fun _ => rfl, fun _ => by simp [World.start, Rec.start], List.nodup_nil, hv, ht,
   fun _ h => (by cases h), rfl⟩

/-- C32. For every set of channels and fields and every history of registrations, changes and
periods, parsing the bytes written gives exactly the recorded changes, in order, each with the name
of its identifier, the time of the change and the stored value. -/
theorem C32_history (c : Cfg) (hc : c.Ok) (env : Names) (henv : env.hdr = c.hdr)
    (hn : ∀ i, ∃ n, env.nameOf (c.ident i) = some n ∧ env.kindOf n = some (c.kind (c.primOf i)))
    (val : Nat → Val) (time : Nat → Int) (hv : ∀ j, Spec.HasKind (c.kind j) (val j)) (ht : ∀ j, c.Time (time j))
    (ops : List Op) (hops : ∀ op ∈ ops, op.TimeOk c) :
    (Rx.new.parse env ((World.start val time).run c ops).out none).evs
        = ((Rec.start val time).run c ops).log.map (fun x => ⟨(env.nameOf (c.ident x.1)).getD "", x.2.1, x.2.2⟩)
      ∧ (Rx.new.parse env ((World.start val time).run c ops).out none).err = none := by
  have h := agree_run c hc ops _ _ (agree_start c val time hv ht) hops
  generalize (World.start val time).run c ops = w at *
  generalize (Rec.start val time).run c ops = r at *
  obtain ⟨s, h1, h2, h3, -⟩ := C32_parse env (r.log.map c.ev) (by
    intro e he
    obtain ⟨x, hx, rfl⟩ := List.mem_map.mp he
    obtain ⟨l1, l2⟩ := h.log x hx
    exact ⟨by rw [henv]; exact hc.ident x.1, by rw [henv]; exact l1, l2, hn x.1⟩)
  rw [henv, h.out] at h1
  cases h1
  refine ⟨?_, h3⟩
  rw [h2, List.map_map]
  rfl

/-- C32. Without periods every change of a registered primitive is recorded by each of its
emitters, once, and nothing else is: what a change adds to the log. -/
theorem C32_every_change (c : Cfg) (r : Rec) (j : Nat) (v : Val) (t : Int)
    (hper : ∀ i ∈ r.on, c.primOf i = j → r.period i = 0) (hmono : ∀ i ∈ r.on, c.primOf i = j → r.last i ≤ t) :
    (r.step c (.set j v t)).log = r.log ++ (if c.differs (c.kind j) (r.val j) v then
      (r.on.filter (fun i => c.primOf i = j)).map (fun i => (i, t, c.store (c.kind j) v)) else []) := by
  simp only [Rec.step]
  split
  · congr 2
    refine List.filter_congr (fun i hi => ?_)
    by_cases hj : c.primOf i = j
    · have : r.due c i t := Or.inr (by rw [hper i hi hj]; have := hmono i hi hj; omega)
      simp [hj, this]
    · simp [hj]
  · rfl

/-- C32. Leaving by an exception keeps the callback and the streaming flag: the changes that follow
are still written to the old stream, and the channel cannot be registered again. -/
theorem C32_abort_fails (c : Cfg) (w : World) (i : Nat) (hi : (w.em i).streaming = true) :
    ((w.abort i).enter c i).2 = some .assertion ∧ (w.abort i).prim = w.prim := by
  refine ⟨?_, rfl⟩
  simp [World.abort, World.enter, hi]

/-! ### Rate limit -/

/-- The times at which an emitter records, oldest first. -/
def Rec.times (r : Rec) (i : Nat) : List Int := (r.log.filter (fun x => x.1 = i)).map (fun x => x.2.1)

/-- Operations while emitter `i` stays registered with the same period. -/
def Op.Keeps (i : Nat) : Op → Prop
  | .leave k => k ≠ i
  | .period k _ => k ≠ i
  | _ => True

/-- Consecutive elements are at least `p` apart. -/
def Apart (p : Int) : List Int → Prop
  | [] => True
  | [_] => True
  | a :: b :: rest => p ≤ b - a ∧ Apart p (b :: rest)

theorem apart_snoc (p : Int) (l : List Int) (x : Int) (h : Apart p l) (hx : ∀ y, l.getLast? = some y → p ≤ x - y) :
    Apart p (l ++ [x]) := by
  induction l with
  | nil => trivial
  | cons a rest ih =>
    cases rest with
    | nil => exact ⟨hx a rfl, trivial⟩
    | cons b rest => exact ⟨h.1, ih h.2 (fun y hy => hx y (by rw [List.getLast?_cons_cons]; exact hy))⟩

theorem filter_map_eq (l : List Nat) (hn : l.Nodup) (i : Nat) (t : Int) (v : Val) :
    ((l.map (fun k => (k, t, v))).filter (fun x : Nat × Int × Val => x.1 = i)).map (fun x => x.2.1)
      = if i ∈ l then [t] else [] := by
  induction l with
  | nil => rfl
  | cons a rest ih =>
    obtain ⟨ha, hr⟩ := List.nodup_cons.mp hn
    rw [List.map_cons]
    by_cases hai : a = i
    · subst hai
      rw [List.filter_cons_of_pos (by simp), List.map_cons, ih hr, if_neg ha, if_pos List.mem_cons_self]
    · rw [List.filter_cons_of_neg (by simpa using hai), ih hr]
      have : (i ∈ a :: rest) ↔ i ∈ rest := by
        simp only [List.mem_cons]
        exact ⟨fun h => h.elim (fun e => absurd e.symm hai) id, Or.inr⟩
      simp only [this]

/-- What holds of an emitter with a period `p` while it stays registered; `new` is what it recorded
since registration. -/
structure Paced (c : Cfg) (i : Nat) (p : Int) (old : List Int) (r : Rec) (new : List Int) : Prop where
  on : i ∈ r.on
  nodup : r.on.Nodup
  period : r.period i = p
  times : r.times i = old ++ new
  apart : Apart p new
  last : new.getLast? = some (r.last i) ∨ (new = [] ∧ r.last i = 0)

theorem paced_step (c : Cfg) (i : Nat) (p : Int) (old : List Int) (r : Rec) (new : List Int)
    (hf : c.force i = false) (h : Paced c i p old r new) (op : Op) (hop : op.Keeps i) :
    ∃ more, Paced c i p old (r.step c op) (new ++ more) ∧ (more = [] ∨ ∃ t, more = [t]) ∧
      ∀ j v t, op = .set j v t → (more = [t] ↔ c.primOf i = j ∧ c.differs (c.kind j) (r.val j) v = true ∧ p ≤ t - r.last i) := by
  obtain ⟨hon, hnd, hper, htm, hap, hla⟩ := h
  cases op with
  | leave k =>
    refine ⟨[], ⟨?_, hnd.filter _, hper, by rw [List.append_nil]; exact htm, by rw [List.append_nil]; exact hap,
      by rw [List.append_nil]; exact hla⟩, Or.inl rfl, fun _ _ _ h => (by cases h)⟩
    simp only [Rec.step, List.mem_filter, decide_eq_true_eq]
    exact ⟨hon, fun e => hop e.symm⟩
  | period k ns =>
    refine ⟨[], ?_, Or.inl rfl, fun _ _ _ h => (by cases h)⟩
    simp only [Rec.step, List.append_nil]
    split
    · exact ⟨hon, hnd, by have : i ≠ k := fun e => hop e.symm
                          simpa [upd, this] using hper, htm, hap, hla⟩
    · exact ⟨hon, hnd, hper, htm, hap, hla⟩
  | enter k =>
    refine ⟨[], ?_, Or.inl rfl, fun _ _ _ h => (by cases h)⟩
    simp only [Rec.step, List.append_nil]
    by_cases hk : k ∈ r.on
    · rw [if_pos hk]; exact ⟨hon, hnd, hper, htm, hap, hla⟩
    · have hki : k ≠ i := fun e => hk (e ▸ hon)
      have hik : i ≠ k := fun e => hki e.symm
      rw [if_neg hk]
      have hnd' : (r.on ++ [k]).Nodup := by
        rw [List.nodup_append]
        exact ⟨hnd, (List.nodup_cons.mpr ⟨List.not_mem_nil, List.nodup_nil⟩), fun a ha b hb => by
          rw [List.mem_singleton.mp hb]; exact fun e => hk (e ▸ ha)⟩
      split
      · refine ⟨List.mem_append_left _ hon, hnd', hper, ?_, hap, ?_⟩
        · unfold Rec.times
          dsimp only
          rw [List.filter_append, List.filter_cons_of_neg (by simpa using hki), List.filter_nil, List.append_nil]
          exact htm
        · simpa [upd, hik] using hla
      · exact ⟨List.mem_append_left _ hon, hnd', hper, htm, hap, by simpa [upd, hik] using hla⟩
  | set j v t =>
    have hdue : ∀ (due : List Nat), due.Nodup →
        ((r.log ++ due.map (fun k => (k, t, c.store (c.kind j) v))).filter (fun x : Nat × Int × Val => decide (x.1 = i))).map
            (fun x => x.2.1) = (old ++ new) ++ (if i ∈ due then [t] else []) := by
      intro due hdn
      rw [List.filter_append, List.map_append, filter_map_eq due hdn i t, ← htm]
      rfl
    generalize hdd : (if c.differs (c.kind j) (r.val j) v then r.on.filter (fun i => c.primOf i = j ∧ r.due c i t) else []) = due
    have hdn : due.Nodup := by
      rw [← hdd]
      split
      · exact hnd.filter _
      · exact List.nodup_nil
    have hmem : i ∈ due ↔ c.primOf i = j ∧ c.differs (c.kind j) (r.val j) v = true ∧ p ≤ t - r.last i := by
      rw [← hdd]
      split
      · rename_i hd
        simp only [List.mem_filter, hon, true_and, decide_eq_true_eq, Rec.due, hf, Bool.false_eq_true, false_or, hper, hd]
      · rename_i hd
        simp [hd]
    have hstep : r.step c (.set j v t) = ⟨upd r.val j (c.store (c.kind j) v), upd r.time j t, r.period,
        fun i => if i ∈ due then t else r.last i, r.on, r.log ++ due.map (fun i => (i, t, c.store (c.kind j) v))⟩ := by
      simp only [Rec.step, hdd]
    rw [hstep]
    by_cases hi : i ∈ due
    · refine ⟨[t], ⟨hon, hnd, hper, ?_, ?_, ?_⟩, Or.inr ⟨t, rfl⟩, ?_⟩
      · rw [← List.append_assoc]
        have := hdue due hdn
        rw [if_pos hi] at this
        exact this
      · refine apart_snoc p new t hap (fun y hy => ?_)
        have := (hmem.mp hi).2.2
        rcases hla with h | ⟨h, -⟩
        · rw [h] at hy; cases hy; exact this
        · rw [h] at hy; cases hy
      · left
        simp [hi]
      · intro j' v' t' he
        cases he
        exact ⟨fun _ => hmem.mp hi, fun _ => rfl⟩
    · refine ⟨[], ⟨hon, hnd, hper, ?_, by rw [List.append_nil]; exact hap, ?_⟩, Or.inl rfl, ?_⟩
      · have := hdue due hdn
        rw [if_neg hi, List.append_nil] at this
        rw [List.append_nil]
        exact this
      · rw [List.append_nil]
        simpa [hi] using hla
      · intro j' v' t' he
        cases he
        exact ⟨fun h => (by cases h), fun h => absurd (hmem.mpr h) hi⟩

theorem paced_run (c : Cfg) (i : Nat) (p : Int) (old : List Int) (hf : c.force i = false) (ops : List Op)
    (hops : ∀ op ∈ ops, op.Keeps i) (r : Rec) (new : List Int) (h : Paced c i p old r new) :
    ∃ more, Paced c i p old (r.run c ops) (new ++ more) := by
  induction ops generalizing r new with
  | nil => exact ⟨[], by rw [List.append_nil]; exact h⟩
  | cons op rest ih =>
    obtain ⟨m1, h1, -⟩ := paced_step c i p old r new hf h op (hops op List.mem_cons_self)
    obtain ⟨m2, h2⟩ := ih (fun o ho => hops o (List.mem_cons_of_mem _ ho)) _ _ h1
    exact ⟨m1 ++ m2, by rw [← List.append_assoc]; exact h2⟩

/-- C34. From a registration on, as long as the channel stays registered with period `p`, in every
history consecutive events of the channel are at least `p` apart; and a change of the channel is
recorded exactly if it comes at least `p` after the last recorded one (after time zero, if there is
none). The registration itself records the current value if its time is at least `p`. -/
theorem C34_rate (c : Cfg) (i : Nat) (hf : c.force i = false) (r : Rec) (hn : r.on.Nodup) (hi : i ∉ r.on)
    (ops : List Op) (hops : ∀ op ∈ ops, op.Keeps i) :
    ∃ new, ((r.step c (.enter i)).run c ops).times i = r.times i ++ new ∧ Apart (r.period i) new
      ∧ (r.period i ≤ r.time (c.primOf i) → new.head? = some (r.time (c.primOf i)))
      ∧ ∀ j v t, (((r.step c (.enter i)).run c ops).step c (.set j v t)).times i
          = r.times i ++ new ++ (if c.primOf i = j ∧ c.differs (c.kind j) (((r.step c (.enter i)).run c ops).val j) v = true
              ∧ r.period i ≤ t - (new.getLast?).getD 0 then [t] else []) := by
  -- right after registration
  have h0 : ∃ new, Paced c i (r.period i) (r.times i) (r.step c (.enter i)) new
      ∧ (r.period i ≤ r.time (c.primOf i) → new = [r.time (c.primOf i)]) := by
    have hnd' : (r.on ++ [i]).Nodup := by
      rw [List.nodup_append]
      exact ⟨hn, (List.nodup_cons.mpr ⟨List.not_mem_nil, List.nodup_nil⟩), fun a ha b hb => by
        rw [List.mem_singleton.mp hb]; exact fun e => hi (e ▸ ha)⟩
    simp only [Rec.step]
    rw [if_neg hi]
    split
    · rename_i hle
      refine ⟨[r.time (c.primOf i)], ⟨by simp, hnd', rfl, ?_, trivial, ?_⟩, fun _ => rfl⟩
      · simp [Rec.times]
      · left; simp [upd]
    · rename_i hle
      exact ⟨[], ⟨by simp, hnd', rfl, by simp [Rec.times], trivial, Or.inr ⟨rfl, by simp [upd]⟩⟩, fun h => absurd h hle⟩
  obtain ⟨n0, p0, f0⟩ := h0
  obtain ⟨more, p1⟩ := paced_run c i (r.period i) (r.times i) hf ops hops _ n0 p0
  refine ⟨n0 ++ more, p1.times, p1.apart, fun hle => by rw [f0 hle]; rfl, fun j v t => ?_⟩
  obtain ⟨m, q1, q2, q3⟩ := paced_step c i (r.period i) (r.times i) _ _ hf p1 (.set j v t) trivial
  have q4 := q3 j v t rfl
  have hlast : ((n0 ++ more).getLast?).getD 0 = ((r.step c (.enter i)).run c ops).last i := by
    rcases p1.last with h | ⟨h, h'⟩
    · rw [h]; rfl
    · rw [h, h']; rfl
  rw [hlast, q1.times, ← List.append_assoc]
  congr 1
  by_cases hc : c.primOf i = j ∧ c.differs (c.kind j) (((r.step c (.enter i)).run c ops).val j) v = true
      ∧ r.period i ≤ t - ((r.step c (.enter i)).run c ops).last i
  · rw [if_pos hc]; exact q4.mpr hc
  · rw [if_neg hc]
    rcases q2 with h | ⟨t', h⟩
    · exact h
    · exfalso
      -- a recorded time is the time of the change
      have hlen := q1.times
      rw [h] at hlen q4
      have : t' = t := by
        have hl := q1.last
        rw [h] at hl
        have hx : ((r.step c (.enter i)).run c ops |>.step c (.set j v t)).last i = t' := by
          rcases hl with hl | ⟨hl, -⟩
          · rw [List.getLast?_append] at hl
            simp only [List.getLast?_singleton, Option.some_or] at hl
            exact (Option.some.inj hl).symm
          · simp at hl
        have hne : ((r.step c (.enter i)).run c ops |>.step c (.set j v t)).times i ≠ ((r.step c (.enter i)).run c ops).times i := by
          rw [hlen, p1.times]
          intro e
          have := congrArg List.length e
          simp at this
        rw [← hx]
        generalize (r.step c (.enter i)).run c ops = r' at *
        simp only [Rec.step] at hne ⊢
        by_cases hd : i ∈ (if c.differs (c.kind j) (r'.val j) v then r'.on.filter (fun i => c.primOf i = j ∧ r'.due c i t) else [])
        · rw [if_pos hd]
        · exfalso
          apply hne
          unfold Rec.times
          dsimp only
          rw [List.filter_append, List.map_append, filter_map_eq _ _ i t, if_neg hd, List.append_nil]
          split
          · exact p1.nodup.filter _
          · exact List.nodup_nil
      subst this
      exact hc (q4.mp rfl)

/-- C34. The first value is not recorded when the clock has not yet reached the period: the time of
the previous event is taken to be zero. -/
theorem C34_first_fails : ∃ (c : Cfg) (r : Rec), c.force 0 = false ∧ r.on = [] ∧ r.period 0 = 1000 ∧ r.time 0 = 400
    ∧ (r.step c (.enter 0)).log = [] ∧ ((r.step c (.enter 0)).step c (.set 0 (.int 7) 900)).log = [] := by
  refine ⟨⟨.std, fun i => i, fun i => i + 1, fun _ => false, fun _ => .int .uint8, fun _ v => v, fun _ a b => a ≠ b⟩,
    ⟨fun _ => .int 0, fun _ => 400, fun _ => 1000, fun _ => 0, [], []⟩, rfl, rfl, rfl, rfl, ?_, ?_⟩ <;> decide

/-! ### A case -/

/-- Two channels, and one primitive with two fields. -/
def sampleCfg : Cfg where
  hdr := .std
  primOf i := if i = 0 then 0 else if i = 1 then 1 else 2
  ident i := (i % 4) + 1
  force i := decide (2 ≤ i)
  kind _ := .int .uint8
  store k v := match k, v with
    | .int k, .int v => .int (wrap k v)
    | .int _, _ => .int 0
    | .bool, _ => .bool true
    | .float, _ => .f32 0
    | .double, _ => .f64 0
  differs _ a b := decide (a ≠ b)

theorem sampleCfg_ok : sampleCfg.Ok := by
  refine ⟨fun i => ?_, fun k v => ?_⟩
  · have : (i : Int) % 4 < 4 := Int.emod_lt_of_pos _ (by decide)
    have : 0 ≤ (i : Int) % 4 := Int.emod_nonneg _ (by decide)
    have h1 : Spec.lo sampleCfg.hdr.ki = 0 := rfl
    have h2 : Spec.hi sampleCfg.hdr.ki = 65535 := rfl
    rw [h1, h2]
    simp only [sampleCfg]
    omega
  · cases k with
    | int k =>
      cases v with
      | int v => exact (packable_iff k _).mp (wrap_packable k v)
      | _ => exact (show Spec.lo k ≤ 0 ∧ (0 : Int) ≤ Spec.hi k by cases k <;> decide)
    | _ => cases v <;> trivial

def sampleNames2 : Names where
  hdr := .std
  nameOf i := some (if i = 1 then "a" else if i = 2 then "b" else if i = 3 then "x" else "y")
  kindOf _ := some (.int .uint8)

def sampleOps : List Op := [.period 1 500, .enter 2, .enter 3, .enter 0, .enter 1, .set 0 (.int 300) 1000, .set 1 (.int 1) 1200,
  .set 1 (.int 2) 1400, .set 1 (.int 3) 1700, .set 2 (.int 9) 1800, .set 2 (.int 9) 1900, .leave 0, .set 0 (.int 1) 2000]

/-- The hypotheses of `C32_history` are met, and the log is not trivial. -/
example : (Rx.new.parse sampleNames2 ((World.start (fun _ => .int 0) (fun _ => 900)).run sampleCfg sampleOps).out none).evs
    = [⟨"x", 900, .int 0⟩, ⟨"y", 900, .int 0⟩, ⟨"a", 900, .int 0⟩, ⟨"b", 900, .int 0⟩, ⟨"a", 1000, .int 44⟩,
       ⟨"b", 1400, .int 2⟩, ⟨"x", 1800, .int 9⟩, ⟨"y", 1800, .int 9⟩] := by
  have h := (C32_history sampleCfg sampleCfg_ok sampleNames2 rfl (fun i => ⟨_, rfl, rfl⟩) (fun _ => .int 0) (fun _ => 900)
    (fun _ => (by decide : Spec.HasKind (.int .uint8) (.int 0))) (fun _ => (by decide)) sampleOps (by
      intro op hop
      simp only [sampleOps, List.mem_cons, List.not_mem_nil, or_false] at hop
      rcases hop with rfl | rfl | rfl | rfl | rfl | rfl | rfl | rfl | rfl | rfl | rfl | rfl | rfl <;> simp only [Op.TimeOk] <;> decide)).1
  rw [h]
  decide +kernel

end Verif.Event
