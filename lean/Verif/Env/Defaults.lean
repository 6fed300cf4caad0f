import Verif.Wire.Lemmas
/-!
C127: the default value of a channel (`channel/__init__.py` 51–130, `channel/environment/__init__.py` 38–60,
`channel/registry.py` 84–137, `task/basic/periodic.py` 102–122). C128: equality of registry items and the sets that hold
them (`registry/item.py` 14–28, `channel/environment/base.py` 81–98, 230–268).

Simplifications: a Python float is a rational number (no NaN or infinity); rounding to single precision is any function
`rnd`, and `math.isclose` any relation `close`. A channel's data keeps its type, its default and its controls' default;
the rest of the dictionary plays no part here. Callbacks of the primitive are left out (C10). Assumed of `vcorelib`: the
codec class defines no `__getitem__`.
-/
namespace Verif.Defaults
open Verif Verif.Wire

/-- `Literal`, channel/__init__.py 33. -/
inductive Lit
  | bool (b : Bool)
  | int (i : Int)
  | float (x : Rat)
  deriving DecidableEq, Repr

/-- The types a channel may have, Channel.yaml 16–28. -/
inductive Ty
  | bool
  | int (k : IntKind)
  | float
  | double
  deriving DecidableEq, Repr

/-- `valid_primitive`, primitives/types/base.py 104–107: `isinstance`; a Python `bool` is an `int`, and an `int` is no
`float`. -/
def valid : Ty → Lit → Bool
  | .bool, .bool _ => true
  | .int _, .bool _ => true
  | .int _, .int _ => true
  | .float, .float _ => true
  | .double, .float _ => true
  | _, _ => false

/-- Assigning to `raw.value` (ctypes): truth value, reduction into the range, rounding. (A float given to an integer type
raises `TypeError`; no caller below gets there.) -/
def store (rnd : Rat → Rat) : Ty → Lit → Lit
  | .bool, .bool b => .bool b
  | .bool, .int i => .bool (i != 0)
  | .bool, .float x => .bool (x != 0)
  | .int k, .bool b => .int (wrap k (if b then 1 else 0))
  | .int k, .int i => .int (wrap k i)
  | .int _, .float x => .float x
  | .float, .bool b => .float (rnd (if b then 1 else 0))
  | .float, .int i => .float (rnd i)
  | .float, .float x => .float (rnd x)
  | .double, .bool b => .float (if b then 1 else 0)
  | .double, .int i => .float i
  | .double, .float x => .float x

/-- The value of a new ctypes instance. -/
def zero : Ty → Lit
  | .bool => .bool false
  | .int _ => .int 0
  | .float | .double => .float 0

/-- A primitive: `obj` says which object it is. -/
structure Prim where
  obj : Nat
  ty : Ty
  value : Lit
  deriving DecidableEq, Repr

/-- A channel; `event` is the object the event streamer reads (`event.primitive`). -/
structure Chan where
  raw : Prim
  default : Option Lit
  control : Option Lit
  event : Nat
  deriving DecidableEq, Repr

/-- The data of a channel: `type`, `default`, and `controls`' `default`. -/
structure Data where
  ty : Ty
  default : Option Lit
  control : Option Lit
  deriving DecidableEq, Repr

/-- `set_default`, channel/__init__.py 72–83. The state is returned also when the assertion fails. -/
def Chan.setDefault (rnd : Rat → Rat) (c : Chan) (d : Option Lit) : Chan × Except PyErr Unit :=
  let c := match d with
    | some v => { c with default := some v }
    | none => c
  match c.default with
  | none => (c, .ok ())
  | some v =>
    if valid c.raw.ty v then ({ c with raw := { c.raw with value := store rnd c.raw.ty v } }, .ok ())
    else (c, .error .assertion)

/-- `update_primitive`, lines 62–70. -/
def Chan.update (rnd : Rat → Rat) (c : Chan) (p : Prim) : Chan × Except PyErr Unit :=
  if p.ty = c.raw.ty then Chan.setDefault rnd { c with raw := p, event := p.obj } none
  else (c, .error .assertion)

/-- `init`, lines 85–112; `obj` is the new primitive. An assertion means there is no channel. -/
def Chan.init (rnd : Rat → Rat) (obj : Nat) (d : Data) : Except PyErr Chan :=
  let c : Chan := ⟨⟨obj, d.ty, zero d.ty⟩, none, d.control, obj⟩
  match c.setDefault rnd (match d.default with | some v => some v | none => d.control) with
  | (c, .ok ()) => .ok c
  | (_, .error e) => .error e

/-- `asdict`, lines 114–133. -/
def Chan.asdict (c : Chan) : Data := ⟨c.raw.ty, c.default, c.control⟩

/-- `ChannelRegistry.channel`, channel/registry.py 100–137, for a name not taken: made from data with the primitive's
type, then given the primitive. -/
def create (rnd : Rat → Rat) (obj : Nat) (p : Prim) (default control : Option Lit) : Except PyErr Chan :=
  match Chan.init rnd obj ⟨p.ty, default, control⟩ with
  | .error e => .error e
  | .ok c =>
    match c.update rnd p with
    | (c, .ok ()) => .ok c
    | (_, .error e) => .error e

/-- `ChannelEnvironment.set_default`, channel/environment/__init__.py 38–42: the attribute is assigned. -/
def Chan.assign (c : Chan) (d : Option Lit) : Chan := { c with default := d }

/-- `raw.value = v`. -/
def Chan.write (rnd : Rat → Rat) (c : Chan) (v : Lit) : Chan :=
  { c with raw := { c.raw with value := store rnd c.raw.ty v } }

/-- `set_period`, task/basic/periodic.py 102–122, on the task's channel. -/
def setPeriod (rnd : Rat → Rat) (close : Lit → Lit → Bool) (c : Chan) (p : Option Lit) (updateDefault : Bool) :
    Chan × Bool :=
  match p with
  | none => (c, false)
  | some v =>
    if close c.raw.value v then (c, false)
    else
      let c := c.write rnd v
      (if updateDefault then c.assign (some v) else c, true)

/-- What is done with a channel. -/
inductive Op
  | setDefault (d : Option Lit)
  | update (p : Prim)
  | assign (d : Option Lit)
  | write (v : Lit)

def step (rnd : Rat → Rat) (c : Chan) : Op → Chan × Except PyErr Unit
  | .setDefault d => c.setDefault rnd d
  | .update p => c.update rnd p
  | .assign d => (c.assign d, .ok ())
  | .write v => (c.write rnd v, .ok ())

def run (rnd : Rat → Rat) (c : Chan) : List Op → Chan
  | [] => c
  | o :: os => run rnd (step rnd c o).1 os

/-! ### C127 -/

theorem setDefault_frame (rnd : Rat → Rat) (c : Chan) (d : Option Lit) :
    (c.setDefault rnd d).1.raw.ty = c.raw.ty ∧ (c.setDefault rnd d).1.raw.obj = c.raw.obj ∧
      (c.setDefault rnd d).1.event = c.event ∧ (c.setDefault rnd d).1.control = c.control ∧
      (c.setDefault rnd d).1.default = (match d with | some v => some v | none => c.default) := by
  unfold Chan.setDefault
  cases d with
  | some v => simp only []; split <;> simp_all
  | none =>
    simp only []
    split
    · simp_all
    · split <;> simp_all

/-- C127: setting a default succeeds exactly if the default then in force (the one given, or the one before) is of the
channel's type or there is none. The value is then the default as stored, the value before if there is none. -/
theorem C127_set (rnd : Rat → Rat) (c : Chan) (d : Option Lit) :
    let eff := match d with | some v => some v | none => c.default
    ((c.setDefault rnd d).2 = .ok () ↔ ∀ v, eff = some v → valid c.raw.ty v = true) ∧
    ((c.setDefault rnd d).2 = .ok () → (c.setDefault rnd d).1.raw.value =
      (match eff with | some v => store rnd c.raw.ty v | none => c.raw.value)) ∧
    ((c.setDefault rnd d).2 ≠ .ok () → (c.setDefault rnd d).2 = .error .assertion ∧
      (c.setDefault rnd d).1.raw = c.raw) := by
  unfold Chan.setDefault
  cases d with
  | some v =>
    simp only []
    by_cases h : valid c.raw.ty v = true <;> simp [h]
  | none =>
    simp only []
    cases hd : c.default with
    | none => simp
    | some v => by_cases h : valid c.raw.ty v = true <;> simp [h]

/-- Which literals are defaults of which type. -/
theorem C127_types (t : Ty) (v : Lit) : valid t v = true ↔
    (t = .bool ∧ ∃ b, v = .bool b) ∨ ((∃ k, t = .int k) ∧ ((∃ b, v = .bool b) ∨ ∃ i, v = .int i)) ∨
      ((t = .float ∨ t = .double) ∧ ∃ x, v = .float x) := by
  cases t <;> cases v <;> simp [valid]

/-- An integer default in the range of its type is the value afterwards; out of range it is not (see
`C127_range_fails`). -/
theorem C127_value (rnd : Rat → Rat) (c : Chan) (k : IntKind) (i : Int) (ht : c.raw.ty = .int k)
    (hi : packable k.size k.signed i = true) :
    (c.setDefault rnd (some (.int i))).2 = .ok () ∧ (c.setDefault rnd (some (.int i))).1.raw.value = .int i := by
  simp [Chan.setDefault, ht, valid, store, wrap_of_packable k i hi]

/-- C127 fails for a default out of range: it is accepted, and the channel never has that value. -/
theorem C127_range_fails (rnd : Rat → Rat) (c : Chan) (k : IntKind) (i : Int) (ht : c.raw.ty = .int k)
    (hi : packable k.size k.signed i = false) :
    (c.setDefault rnd (some (.int i))).2 = .ok () ∧ (c.setDefault rnd (some (.int i))).1.default = some (.int i) ∧
      (c.setDefault rnd (some (.int i))).1.raw.value ≠ .int i := by
  refine ⟨by simp [Chan.setDefault, ht, valid], by simp [Chan.setDefault, ht, valid], ?_⟩
  simp only [Chan.setDefault, ht, valid, store, if_true]
  intro h
  have := wrap_packable k i
  simp_all

/-- C127 fails: a default that is refused stays. From then on every `set_default()` and every new primitive is refused
too, whatever values are written in between, until another default is given. -/
theorem C127_refused_fails (rnd : Rat → Rat) (c : Chan) (v : Lit) (h : valid c.raw.ty v = false) (ops : List Op)
    (ho : ∀ o ∈ ops, (∃ w, o = .write w) ∨ o = .setDefault none ∨ ∃ p, o = .update p) :
    (c.setDefault rnd (some v)).2 = .error .assertion ∧
    let c' := run rnd (c.setDefault rnd (some v)).1 ops
    c'.default = some v ∧ (c'.setDefault rnd none).2 = .error .assertion ∧
      ∀ p, (c'.update rnd p).2 = .error .assertion := by
  refine ⟨by simp [Chan.setDefault, h], ?_⟩
  have key : ∀ (ops : List Op) (c' : Chan), valid c'.raw.ty v = false → c'.default = some v →
      (∀ o ∈ ops, (∃ w, o = .write w) ∨ o = .setDefault none ∨ ∃ p, o = .update p) →
      valid (run rnd c' ops).raw.ty v = false ∧ (run rnd c' ops).default = some v := by
    intro ops
    induction ops with
    | nil => intro c' h1 h2 _; exact ⟨h1, h2⟩
    | cons o os ih =>
      intro c' h1 h2 ho
      have hs : valid (step rnd c' o).1.raw.ty v = false ∧ (step rnd c' o).1.default = some v := by
        rcases ho o (by simp) with ⟨w, rfl⟩ | rfl | ⟨p, rfl⟩
        · exact ⟨h1, h2⟩
        · have f := setDefault_frame rnd c' none
          exact ⟨by simp only [step]; rw [f.1]; exact h1, by simp only [step]; rw [f.2.2.2.2]; exact h2⟩
        · simp only [step, Chan.update]
          split
          · rename_i e
            have f := setDefault_frame rnd { c' with raw := p, event := p.obj } none
            exact ⟨by rw [f.1]; simpa [e] using h1, by rw [f.2.2.2.2]; exact h2⟩
          · exact ⟨h1, h2⟩
      exact ih _ hs.1 hs.2 (fun o h => ho o (by simp [h]))
  have f := setDefault_frame rnd c (some v)
  obtain ⟨k1, k2⟩ := key ops (c.setDefault rnd (some v)).1 (by rw [f.1]; exact h) f.2.2.2.2 ho
  generalize run rnd (c.setDefault rnd (some v)).1 ops = q at k1 k2 ⊢
  refine ⟨k2, by simp [Chan.setDefault, k2, k1], fun p => ?_⟩
  unfold Chan.update
  split
  · rename_i e
    simp [Chan.setDefault, k2, e, k1]
  · rfl

/-- C127: whatever is done, refused or not, events are read from the primitive the channel has, and the type stays. -/
theorem C127_event (rnd : Rat → Rat) (c : Chan) (h : c.event = c.raw.obj) (ops : List Op) :
    (run rnd c ops).event = (run rnd c ops).raw.obj ∧ (run rnd c ops).raw.ty = c.raw.ty := by
  induction ops generalizing c with
  | nil => exact ⟨h, rfl⟩
  | cons o os ih =>
    have hs : (step rnd c o).1.event = (step rnd c o).1.raw.obj ∧ (step rnd c o).1.raw.ty = c.raw.ty := by
      cases o with
      | setDefault d =>
        have f := setDefault_frame rnd c d
        exact ⟨by simp only [step]; rw [f.2.2.1, f.2.1, h], f.1⟩
      | update p =>
        simp only [step, Chan.update]
        split
        · rename_i e
          have f := setDefault_frame rnd { c with raw := p, event := p.obj } none
          exact ⟨by rw [f.2.2.1, f.2.1], by rw [f.1]; exact e⟩
        · exact ⟨h, rfl⟩
      | assign d => exact ⟨h, rfl⟩
      | write v => exact ⟨h, rfl⟩
    have := ih _ hs.1
    exact ⟨this.1, by simp only [run]; rw [this.2, hs.2]⟩

/-- C127: a new channel. Its data decide: the default comes first, then the controls' default; it must be of the
channel's type; the value is the default, or zero. -/
theorem C127_init (rnd : Rat → Rat) (obj : Nat) (d : Data) :
    let eff := match d.default with | some v => some v | none => d.control
    ((∃ c, Chan.init rnd obj d = .ok c) ↔ ∀ v, eff = some v → valid d.ty v = true) ∧
    ∀ c, Chan.init rnd obj d = .ok c → c.default = eff ∧ c.control = d.control ∧ c.raw.ty = d.ty ∧ c.raw.obj = obj ∧
      c.event = obj ∧ c.raw.value = (match eff with | some v => store rnd d.ty v | none => zero d.ty) := by
  rcases d with ⟨t, d, k⟩
  cases d with
  | some v => by_cases h : valid t v = true <;> simp [Chan.init, Chan.setDefault, h] <;> (rintro c rfl; simp)
  | none =>
    cases k with
    | none => simp [Chan.init, Chan.setDefault]
    | some v => by_cases h : valid t v = true <;> simp [Chan.init, Chan.setDefault, h] <;> (rintro c rfl; simp)

/-- C127: a channel made around a primitive uses that very primitive, for its value and for events. With a default the
primitive is set to it, without one it keeps its value. -/
theorem C127_create (rnd : Rat → Rat) (obj : Nat) (p : Prim) (default control : Option Lit) :
    let eff := match default with | some v => some v | none => control
    ((∃ c, create rnd obj p default control = .ok c) ↔ ∀ v, eff = some v → valid p.ty v = true) ∧
    ∀ c, create rnd obj p default control = .ok c → c.event = p.obj ∧ c.default = eff ∧
      c.raw = { p with value := match eff with | some v => store rnd p.ty v | none => p.value } := by
  cases default with
  | some v =>
    by_cases h : valid p.ty v = true <;> simp [create, Chan.init, Chan.update, Chan.setDefault, h] <;>
      (rintro c rfl; simp)
  | none =>
    cases control with
    | none => simp [create, Chan.init, Chan.update, Chan.setDefault]
    | some v =>
      by_cases h : valid p.ty v = true <;> simp [create, Chan.init, Chan.update, Chan.setDefault, h] <;>
        (rintro c rfl; simp)

/-- C127: a channel can be made again from its data exactly if its default is of its type; it then has the same default,
the same controls and type, and the default as its value. -/
theorem C127_reload (rnd : Rat → Rat) (obj : Nat) (c : Chan) (hd : c.default = none → c.control = none) :
    ((∃ c', Chan.init rnd obj c.asdict = .ok c') ↔ ∀ v, c.default = some v → valid c.raw.ty v = true) ∧
    ∀ c', Chan.init rnd obj c.asdict = .ok c' → c'.asdict = c.asdict ∧
      c'.raw.value = (match c.default with | some v => store rnd c.raw.ty v | none => zero c.raw.ty) := by
  have h := C127_init rnd obj c.asdict
  have e : (match c.asdict.default with | some v => some v | none => c.asdict.control) = c.default := by
    simp only [Chan.asdict]
    cases hc : c.default with
    | some v => rfl
    | none => exact hd hc
  simp only [e] at h
  refine ⟨h.1, fun c' h' => ?_⟩
  obtain ⟨h1, h2, h3, _, _, h6⟩ := h.2 c' h'
  exact ⟨by simp [Chan.asdict, h1, h2, h3], h6⟩

/-- The default of the controls comes back: taken away by assigning `None` (as the environment's `set_default` may), it
is there again after a reload. -/
theorem C127_cleared_fails (rnd : Rat → Rat) (obj : Nat) (c : Chan) (v : Lit) (hc : c.control = some v)
    (hv : valid c.raw.ty v = true) :
    (c.assign none).default = none ∧
      ∃ c', Chan.init rnd obj (c.assign none).asdict = .ok c' ∧ c'.default = some v := by
  refine ⟨rfl, ?_⟩
  have h := C127_init rnd obj (c.assign none).asdict
  simp only [Chan.asdict, Chan.assign, hc] at h
  obtain ⟨c', h'⟩ := h.1.2 (fun w e => by cases e; exact hv)
  exact ⟨c', by simpa [Chan.asdict, Chan.assign, hc] using h', by simpa using (h.2 c' h').1⟩

/-- C127, for channels whose defaults are set by `set_default` without a refusal (or assigned with a literal of the type):
the default is always of the type, so the channel can be made again from its data. -/
theorem C127_typed_partial (rnd : Rat → Rat) (c : Chan) (ops : List Op)
    (h : ∀ v, c.default = some v → valid c.raw.ty v = true)
    (ho : ∀ o ∈ ops, ∀ v, (o = .setDefault (some v) ∨ o = .assign (some v)) → valid c.raw.ty v = true) :
    ∀ v, (run rnd c ops).default = some v → valid (run rnd c ops).raw.ty v = true := by
  induction ops generalizing c with
  | nil => exact h
  | cons o os ih =>
    simp only [run]
    have hs : (step rnd c o).1.raw.ty = c.raw.ty ∧
        ∀ v, (step rnd c o).1.default = some v → valid c.raw.ty v = true := by
      cases o with
      | setDefault d =>
        have f := setDefault_frame rnd c d
        refine ⟨f.1, fun v hv => ?_⟩
        simp only [step] at hv
        rw [f.2.2.2.2] at hv
        cases d with
        | none => exact h v hv
        | some w => cases hv; exact ho _ (by simp) v (Or.inl rfl)
      | update p =>
        simp only [step, Chan.update]
        split
        · rename_i e
          have f := setDefault_frame rnd { c with raw := p, event := p.obj } none
          exact ⟨by rw [f.1]; exact e, fun v hv => by rw [f.2.2.2.2] at hv; exact h v hv⟩
        · exact ⟨rfl, h⟩
      | assign d =>
        refine ⟨rfl, fun v hv => ?_⟩
        cases d with
        | none => simp [step, Chan.assign] at hv
        | some w => simp only [step, Chan.assign] at hv; cases hv; exact ho _ (by simp) v (Or.inr rfl)
      | write v => exact ⟨rfl, h⟩
    exact ih _ (by rw [hs.1]; exact hs.2) (fun o h' v hv => by rw [hs.1]; exact ho o (by simp [h']) v hv)

/-- C127: the period of a task. It changes exactly if one is given that is not close to the one there is; the channel has
it then, and it is the default unless that was not asked for. -/
theorem C127_period (rnd : Rat → Rat) (close : Lit → Lit → Bool) (c : Chan) (p : Option Lit) (u : Bool) :
    ((setPeriod rnd close c p u).2 = true ↔ ∃ v, p = some v ∧ close c.raw.value v = false) ∧
    ((setPeriod rnd close c p u).2 = false → (setPeriod rnd close c p u).1 = c) ∧
    ∀ v, p = some v → close c.raw.value v = false →
      (setPeriod rnd close c p u).1.raw.value = store rnd c.raw.ty v ∧
      (setPeriod rnd close c p u).1.default = if u then some v else c.default := by
  unfold setPeriod
  cases p with
  | none => simp
  | some v =>
    by_cases h : close c.raw.value v = true
    · simp [h]
    · cases u <;> simp [h, Chan.write, Chan.assign]

/-- C127 fails for a task whose period is a whole number (`period_s: 2`, which the schema allows): the default is an
integer, the channel a float, and the environment that is exported cannot be loaded. -/
theorem C127_whole_period_fails (rnd : Rat → Rat) (close : Lit → Lit → Bool) (obj : Nat) (c : Chan) (i : Int)
    (ht : c.raw.ty = .float) (hc : close c.raw.value (.int i) = false) :
    Chan.init rnd obj (setPeriod rnd close c (some (.int i)) true).1.asdict = .error .assertion := by
  simp [setPeriod, hc, Chan.write, Chan.assign, Chan.asdict, Chan.init, Chan.setDefault, valid, ht]

/-- `num_defaults`, channel/environment/__init__.py 44–60, over the channels that `get` returns for the names (`none` for
the name of a field). -/
def numDefaults (chans : List (Option Chan)) : Nat → Nat
  | n => match chans with
    | [] => n
    | some c :: rest => numDefaults rest (if c.default.isSome then n + 1 else n)
    | none :: rest => numDefaults rest n

theorem numDefaults_acc (chans : List (Option Chan)) (n : Nat) :
    numDefaults chans n = n + (chans.filter fun o => match o with | some c => c.default.isSome | none => false).length := by
  induction chans generalizing n with
  | nil => simp [numDefaults]
  | cons o os ih =>
    cases o with
    | none => simp [numDefaults, ih]
    | some c =>
      by_cases h : c.default.isSome = true
      · simp [numDefaults, ih, h]; omega
      · simp [numDefaults, ih, h]

/-- C127: the button that resets all defaults (widgets.py 134) is there exactly if two different names belong to channels
with a default. -/
theorem C127_button (chans : List (Option Chan)) :
    numDefaults chans 0 > 1 ↔ ∃ (i j : Nat) (c d : Chan), i < j ∧ chans[i]? = some (some c) ∧ chans[j]? = some (some d) ∧
      c.default ≠ none ∧ d.default ≠ none := by
  rw [numDefaults_acc]
  have one : ∀ l : List (Option Chan),
      0 < (l.filter fun o => match o with | some c => c.default.isSome | none => false).length ↔
        ∃ (i : Nat) (c : Chan), l[i]? = some (some c) ∧ c.default ≠ none := by
    intro l
    rw [List.length_pos_iff_exists_mem]
    constructor
    · rintro ⟨o, ho⟩
      rw [List.mem_filter] at ho
      obtain ⟨i, hi⟩ := List.mem_iff_getElem?.1 ho.1
      cases o with
      | none => simp at ho
      | some c => exact ⟨i, c, hi, by intro e; simp [e] at ho⟩
    · rintro ⟨i, c, hi, hc⟩
      refine ⟨some c, List.mem_filter.2 ⟨List.mem_iff_getElem?.2 ⟨i, hi⟩, ?_⟩⟩
      cases h : c.default with
      | none => exact absurd h hc
      | some v => simp [h]
  induction chans with
  | nil => simp
  | cons o os ih =>
    have up : (∃ (i j : Nat) (c d : Chan), i < j ∧ os[i]? = some (some c) ∧ os[j]? = some (some d) ∧
        c.default ≠ none ∧ d.default ≠ none) → ∃ (i j : Nat) (c d : Chan), i < j ∧ (o :: os)[i]? = some (some c) ∧
        (o :: os)[j]? = some (some d) ∧ c.default ≠ none ∧ d.default ≠ none := by
      rintro ⟨i, j, c, d, h1, h2, h3, h4⟩
      exact ⟨i + 1, j + 1, c, d, by omega, by simpa using h2, by simpa using h3, h4⟩
    have down : (∃ (i j : Nat) (c d : Chan), i < j ∧ (o :: os)[i]? = some (some c) ∧ (o :: os)[j]? = some (some d) ∧
        c.default ≠ none ∧ d.default ≠ none) →
        (∃ c, o = some c ∧ c.default ≠ none) ∧ (∃ (i : Nat) (c : Chan), os[i]? = some (some c) ∧ c.default ≠ none) ∨
        ∃ (i j : Nat) (c d : Chan), i < j ∧ os[i]? = some (some c) ∧ os[j]? = some (some d) ∧
          c.default ≠ none ∧ d.default ≠ none := by
      rintro ⟨i, j, c, d, h1, h2, h3, h4, h5⟩
      cases j with
      | zero => omega
      | succ j =>
        cases i with
        | zero => exact Or.inl ⟨⟨c, by simpa using h2, h4⟩, ⟨j, d, by simpa using h3, h5⟩⟩
        | succ i => exact Or.inr ⟨i, j, c, d, by omega, by simpa using h2, by simpa using h3, h4, h5⟩
    by_cases ho : ∃ c, o = some c ∧ c.default ≠ none
    · obtain ⟨c, rfl, hc⟩ := ho
      have e : ((some c :: os).filter fun o => match o with | some c => c.default.isSome | none => false).length =
          (os.filter fun o => match o with | some c => c.default.isSome | none => false).length + 1 := by
        cases h : c.default with
        | none => exact absurd h hc
        | some v => simp [h]
      rw [e]
      constructor
      · intro h
        obtain ⟨i, d, h1, h2⟩ := (one os).1 (by omega)
        exact ⟨0, i + 1, c, d, by omega, by simp, by simpa using h1, hc, h2⟩
      · intro h
        rcases down h with ⟨_, h⟩ | h
        · have := (one os).2 h; omega
        · have := ih.2 h; omega
    · have e : ((o :: os).filter fun o => match o with | some c => c.default.isSome | none => false) =
          (os.filter fun o => match o with | some c => c.default.isSome | none => false) := by
        rw [List.filter_cons_of_neg]
        intro h
        cases o with
        | none => simp at h
        | some c => exact ho ⟨c, rfl, by intro e; simp [e] at h⟩
      rw [e]
      refine Iff.trans ih ⟨up, fun h => (down h).resolve_left (fun h' => ho h'.1)⟩

/-! ### C128 -/

/-- A registry item: the object, and its `id`. -/
structure Item where
  obj : Nat
  id : Int
  deriving DecidableEq, Repr

/-- What an item is compared with: another item, a mapping with or without the key `id`, or something else (which has
neither the attribute nor subscripts). -/
inductive Other
  | item (i : Item)
  | dict (id : Option Int)
  | other
  deriving DecidableEq, Repr

/-- `__eq__`, registry/item.py 21–23: the third argument of `getattr` is evaluated first, whether it is needed or not. -/
def Item.eq (x : Item) : Other → Except PyErr Bool
  | .dict (some i) => .ok (x.id == i)
  | .dict none => .error .key
  | .item _ => .error .type
  | .other => .error .type

/-- Membership in a set (or among the keys of a dict) of items, CPython: entries of the same hash are the same object, or
compared by `__eq__`. (The hash is that of the identifier, lines 17–19, taken to be injective.) -/
def mem (s : List Item) (x : Item) : Except PyErr Bool :=
  match s with
  | [] => .ok false
  | y :: ys =>
    if y.id = x.id then
      if y.obj = x.obj then .ok true
      else match y.eq (.item x) with
        | .error e => .error e
        | .ok true => .ok true
        | .ok false => mem ys x
    else mem ys x

/-- `set.add`. -/
def add (s : List Item) (x : Item) : Except PyErr (List Item) :=
  match mem s x with
  | .error e => .error e
  | .ok true => .ok s
  | .ok false => .ok (s ++ [x])

def addAll (s : List Item) : List Item → Except PyErr (List Item)
  | [] => .ok s
  | x :: xs => match add s x with
    | .error e => .error e
    | .ok s => addAll s xs

/-- C128 fails: two items are never compared; not even an item with itself. -/
theorem C128_items_fails (x y : Item) : x.eq (.item y) = .error .type := rfl

/-- C128: an item equals the data of an item with its identifier, and no other data. -/
theorem C128_data_partial (x : Item) (i : Int) : x.eq (.dict (some i)) = .ok (decide (x.id = i)) := by
  simp only [Item.eq]
  by_cases h : x.id = i <;> simp [h]

/-- C128: in a set without two items of one identifier, an item is found exactly if it is that object; another object
with the identifier of a member raises `TypeError`; an identifier not there is not found. -/
theorem C128_member (s : List Item) (hs : s.Pairwise fun a b => a.id ≠ b.id) (x : Item) :
    (mem s x = .ok true ↔ ∃ y ∈ s, y.id = x.id ∧ y.obj = x.obj) ∧
    (mem s x = .ok false ↔ ∀ y ∈ s, y.id ≠ x.id) ∧
    (mem s x = .error .type ↔ ∃ y ∈ s, y.id = x.id ∧ y.obj ≠ x.obj) := by
  induction s with
  | nil => simp [mem]
  | cons y ys ih =>
    rw [List.pairwise_cons] at hs
    have ih := ih hs.2
    unfold mem
    by_cases h : y.id = x.id
    · have hn : ∀ z ∈ ys, z.id ≠ x.id := fun z hz e => hs.1 z hz (by rw [h, e])
      rw [if_pos h]
      by_cases h' : y.obj = x.obj
      · rw [if_pos h']
        refine ⟨⟨fun _ => ⟨y, by simp, h, h'⟩, fun _ => rfl⟩, ⟨by simp, fun k => absurd h (k y (by simp))⟩,
          ⟨by simp, ?_⟩⟩
        rintro ⟨z, hz, h1, h2⟩
        rcases List.mem_cons.1 hz with rfl | hz
        · exact absurd h' h2
        · exact absurd h1 (hn z hz)
      · rw [if_neg h']
        simp only [Item.eq]
        refine ⟨⟨by simp, ?_⟩, ⟨by simp, fun k => absurd h (k y (by simp))⟩, ⟨fun _ => ⟨y, by simp, h, h'⟩, fun _ => trivial⟩⟩
        rintro ⟨z, hz, h1, h2⟩
        rcases List.mem_cons.1 hz with rfl | hz
        · exact absurd h2 h'
        · exact absurd h1 (hn z hz)
    · rw [if_neg h]
      simp only [List.mem_cons, exists_eq_or_imp, forall_eq_or_imp, h, false_and, false_or, ne_eq, not_false_iff, true_and]
      exact ih

/-- C128: building a set of items (the `bools`, `ints`, `floats` of an environment, base.py 89–104) succeeds for items of
different identifiers, in their order, and an item of a new identifier is then added. -/
theorem C128_sets (s xs : List Item) (h : (s ++ xs).Pairwise fun a b => a.id ≠ b.id) : addAll s xs = .ok (s ++ xs) := by
  induction xs generalizing s with
  | nil => simp [addAll]
  | cons x xs ih =>
    have hp := List.pairwise_append.1 h
    have hm : mem s x = .ok false := ((C128_member s hp.1 x).2.1).2 (fun y hy => hp.2.2 y hy x (by simp))
    simp only [addAll, add, hm]
    rw [ih (s ++ [x]) (by simpa using h)]
    simp

/-- Two different items of one identifier do not go into one set. -/
theorem C128_clash (s xs : List Item) (h : (s ++ xs).Pairwise fun a b => a.id ≠ b.id) (x y : Item) (hy : y ∈ s ++ xs)
    (hi : y.id = x.id) (ho : y.obj ≠ x.obj) : addAll s (xs ++ [x]) = .error .type := by
  induction xs generalizing s with
  | nil =>
    simp only [List.append_nil] at h hy
    have hm : mem s x = .error .type := ((C128_member s h x).2.2).2 ⟨y, hy, hi, ho⟩
    simp [addAll, add, hm]
  | cons z zs ih =>
    have hp := List.pairwise_append.1 h
    have hm : mem s z = .ok false := ((C128_member s hp.1 z).2.1).2 (fun y hy => hp.2.2 y hy z (by simp))
    simp only [List.cons_append, addAll, add, hm]
    exact ih (s ++ [z]) (by simpa using h) (by simpa using hy)

/-! ### Examples -/

def exRnd : Rat → Rat := id
def exClose : Lit → Lit → Bool := fun a b => a == b
def exPeriod : Chan := ⟨⟨7, .float, .float 0⟩, none, none, 7⟩

example : create exRnd 0 ⟨5, .int .uint8, .int 9⟩ (some (.int 3)) (some (.int 4)) =
    .ok ⟨⟨5, .int .uint8, .int 3⟩, some (.int 3), some (.int 4), 5⟩ := by decide +kernel
example : (Chan.setDefault exRnd ⟨⟨5, .int .uint8, .int 9⟩, none, none, 5⟩ (some (.int 300))).1.raw.value = .int 44 := by
  decide +kernel
example : (Chan.setDefault exRnd exPeriod (some (.int 2))).2 = .error .assertion := by decide +kernel
example : Chan.init exRnd 1 (setPeriod exRnd exClose exPeriod (some (.float 2)) true).1.asdict =
    .ok ⟨⟨1, .float, .float 2⟩, some (.float 2), none, 1⟩ := by decide +kernel
example : Chan.init exRnd 1 (setPeriod exRnd exClose exPeriod (some (.int 2)) true).1.asdict = .error .assertion :=
  C127_whole_period_fails exRnd exClose 1 exPeriod 2 rfl (by decide +kernel)
example : mem [⟨0, 1⟩, ⟨1, 2⟩] ⟨1, 2⟩ = .ok true ∧ mem [⟨0, 1⟩, ⟨1, 2⟩] ⟨9, 2⟩ = .error .type := by decide
example : addAll [] [⟨0, 1⟩, ⟨1, 2⟩, ⟨2, 3⟩] = .ok [⟨0, 1⟩, ⟨1, 2⟩, ⟨2, 3⟩] := by decide

end Verif.Defaults
