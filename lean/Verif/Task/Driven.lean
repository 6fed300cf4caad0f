import Mathlib.Analysis.SpecialFunctions.Trigonometric.Basic
import Mathlib.Data.Nat.ModEq
import Mathlib.Tactic.Linarith
import Mathlib.Tactic.Ring
import Mathlib.Tactic.FieldSimp
import Mathlib.Tactic.NormNum
/-!
C102: the tasks that follow their own dispatch counter: `SinusoidTask` (`task/trig/__init__.py` 12–26 with
`mixins/trig.py` 15–83) and `SampleTelemetryTask` (`telemetry/sample.py` 57–105).

The values of the sinusoid are real numbers: rounding to `Float` is left out (C100). A channel assigned the value
it has does not call its callbacks. The counter is `metrics.dispatches`, which C101 proves to be the number of
dispatches that came to an end, modulo 2^32.
-/
namespace Verif.Driven

/-! ### The sinusoid -/

/-- `TrigMixin`, mixins/trig.py 18–64. -/
structure Trig where
  sin : ℝ
  cos : ℝ
  /-- `step_angle` -/
  angle : ℝ
  steps : ℝ
  amplitude : ℝ
  sinPhase : ℝ
  cosPhase : ℝ

/-- What is created: the channels have the defaults of their controls (ui/controls.py 36–46, channel/__init__.py
72–101), `sin` and `cos` have none. The callbacks are registered afterwards. -/
noncomputable def Trig.init : Trig := ⟨0, 0, 0, 64, 1, 0, 0⟩

/-- `_update_sin`, mixins/trig.py 61–67. -/
noncomputable def Trig.updateSin (s : Trig) : Trig := { s with sin := s.amplitude * Real.sin (s.angle + s.sinPhase) }

/-- `_update_cos`, mixins/trig.py 69–75. -/
noncomputable def Trig.updateCos (s : Trig) : Trig := { s with cos := s.amplitude * Real.cos (s.angle + s.cosPhase) }

/-- `dispatch_trig`, mixins/trig.py 77–82; false: it raised `ZeroDivisionError`. -/
noncomputable def Trig.dispatch (s : Trig) (step : Nat) : Trig × Bool :=
  open Classical in
  if s.steps = 0 then (s, false)
  else ({ s with angle := (2 * Real.pi / s.steps) * step }.updateSin.updateCos, true)

/-- What happens to the channels. -/
inductive Op where
  | setAmplitude (v : ℝ)
  | setSinPhase (v : ℝ)
  | setCosPhase (v : ℝ)
  | setSteps (v : ℝ)
  /-- a dispatch with this counter -/
  | dispatch (step : Nat)

/-- One event; the callbacks of mixins/trig.py 46–59 are called on a change. -/
noncomputable def Trig.step (s : Trig) : Op → Trig
  | .setAmplitude v => open Classical in
    if s.amplitude = v then s else { s with amplitude := v }.updateSin.updateCos
  | .setSinPhase v => open Classical in if s.sinPhase = v then s else { s with sinPhase := v }.updateSin
  | .setCosPhase v => open Classical in if s.cosPhase = v then s else { s with cosPhase := v }.updateCos
  | .setSteps v => { s with steps := v }
  | .dispatch k => (s.dispatch k).1

noncomputable def Trig.run (s : Trig) (os : List Op) : Trig := os.foldl Trig.step s

theorem run_snoc (s : Trig) (os : List Op) (o : Op) : s.run (os ++ [o]) = (s.run os).step o := by
  unfold Trig.run
  rw [List.foldl_append]
  rfl

theorem run_cons (s : Trig) (o : Op) (os : List Op) : s.run (o :: os) = (s.step o).run os := rfl

theorem run_append (s : Trig) (os ps : List Op) : s.run (os ++ ps) = (s.run os).run ps := by
  unfold Trig.run
  rw [List.foldl_append]

/-- `sin` is what amplitude, angle and phase say. -/
def SinOk (s : Trig) : Prop := s.sin = s.amplitude * Real.sin (s.angle + s.sinPhase)

/-- `cos` is what amplitude, angle and phase say. -/
def CosOk (s : Trig) : Prop := s.cos = s.amplitude * Real.cos (s.angle + s.cosPhase)

theorem sin_step (s : Trig) (o : Op) (h : SinOk s) : SinOk (s.step o) := by
  cases o with
  | setAmplitude v => unfold Trig.step; dsimp only; split; exacts [h, rfl]
  | setSinPhase v => unfold Trig.step; dsimp only; split; exacts [h, rfl]
  | setCosPhase v => unfold Trig.step; dsimp only; split; exacts [h, h]
  | setSteps v => exact h
  | dispatch k => unfold Trig.step Trig.dispatch; dsimp only; split; exacts [h, rfl]

theorem cos_step (s : Trig) (o : Op) (h : CosOk s) : CosOk (s.step o) := by
  cases o with
  | setAmplitude v => unfold Trig.step; dsimp only; split; exacts [h, rfl]
  | setSinPhase v => unfold Trig.step; dsimp only; split; exacts [h, h]
  | setCosPhase v => unfold Trig.step; dsimp only; split; exacts [h, rfl]
  | setSteps v => exact h
  | dispatch k => unfold Trig.step Trig.dispatch; dsimp only; split; exacts [h, rfl]

theorem sin_run (os : List Op) : ∀ s, SinOk s → SinOk (s.run os) := by
  induction os with
  | nil => intro s h; exact h
  | cons o os ih => intro s h; exact ih _ (sin_step s o h)

theorem cos_run (os : List Op) : ∀ s, CosOk s → CosOk (s.run os) := by
  induction os with
  | nil => intro s h; exact h
  | cons o os ih => intro s h; exact ih _ (cos_step s o h)

theorem sin_init : SinOk Trig.init := by simp [SinOk, Trig.init]

/-- The angle that amplitude and phases are applied to: that of the last dispatch. -/
theorem step_angle (s : Trig) (o : Op) (h : ∀ k, o ≠ .dispatch k) : (s.step o).angle = s.angle := by
  cases o with
  | dispatch k => exact absurd rfl (h k)
  | setSteps v => rfl
  | _ v => unfold Trig.step; dsimp only; split <;> rfl

theorem run_angle (os : List Op) : ∀ s : Trig, (∀ k, Op.dispatch k ∉ os) → (s.run os).angle = s.angle := by
  induction os with
  | nil => intro s _; rfl
  | cons o os ih =>
    intro s h
    rw [run_cons, ih _ (fun k hk => h k (List.mem_cons_of_mem _ hk)),
      step_angle s o (fun k e => h k (e ▸ List.mem_cons_self))]

theorem dispatched (s : Trig) (k : Nat) (h : s.steps ≠ 0) :
    (s.dispatch k).1 = { s with angle := (2 * Real.pi / s.steps) * k }.updateSin.updateCos ∧
      (s.dispatch k).2 = true := by
  unfold Trig.dispatch
  rw [if_neg h]
  exact ⟨rfl, rfl⟩

/-- C102: after any history, from a dispatch with counter `k` on and until the next one, `sin` and `cos` are the
amplitude, as it is now, times sine and cosine of `k` steps plus the phase, as it is now; `k` steps of a turn
divided by the number of steps there was at the dispatch. -/
theorem C102_wave (os ps : List Op) (k : Nat) (n : ℝ) (hn : (Trig.init.run os).steps = n) (h0 : n ≠ 0)
    (hp : ∀ j, Op.dispatch j ∉ ps) (s : Trig) (hs : s = Trig.init.run (os ++ .dispatch k :: ps)) :
    s.sin = s.amplitude * Real.sin (2 * Real.pi * k / n + s.sinPhase) ∧
      s.cos = s.amplitude * Real.cos (2 * Real.pi * k / n + s.cosPhase) := by
  have hd := (dispatched (Trig.init.run os) k (hn ▸ h0)).1
  have e : s = ((Trig.init.run os).dispatch k).1.run ps := by rw [hs, run_append, run_cons]; rfl
  have ha : s.angle = 2 * Real.pi * k / n := by
    rw [e, run_angle ps _ hp, hd, ← hn]
    show (2 * Real.pi / (Trig.init.run os).steps) * k = _
    ring
  have h1 : SinOk s := by
    rw [e]
    exact sin_run ps _ (by rw [hd]; rfl)
  have h2 : CosOk s := by
    rw [e]
    exact cos_run ps _ (by rw [hd]; rfl)
  exact ⟨by rw [← ha]; exact h1, by rw [← ha]; exact h2⟩

/-- C102: `sin` is right from the start, before any dispatch. -/
theorem C102_sin (os : List Op) : SinOk (Trig.init.run os) := sin_run os _ sin_init

/-- Whether an event writes the field that `o` writes. -/
def Op.same : Op → Op → Prop
  | .setAmplitude _, .setAmplitude _ => True
  | .setSinPhase _, .setSinPhase _ => True
  | .setCosPhase _, .setCosPhase _ => True
  | .setSteps _, .setSteps _ => True
  | _, _ => False

/-- C102: amplitude, phases and the number of steps are what they were last set to. -/
theorem C102_last (os ps : List Op) (v : ℝ) (s : Op → Trig) (hs : ∀ o, s o = Trig.init.run (os ++ o :: ps)) :
    ((∀ o ∈ ps, ¬ o.same (.setAmplitude v)) → (s (.setAmplitude v)).amplitude = v) ∧
    ((∀ o ∈ ps, ¬ o.same (.setSinPhase v)) → (s (.setSinPhase v)).sinPhase = v) ∧
    ((∀ o ∈ ps, ¬ o.same (.setCosPhase v)) → (s (.setCosPhase v)).cosPhase = v) ∧
    ((∀ o ∈ ps, ¬ o.same (.setSteps v)) → (s (.setSteps v)).steps = v) := by
  have key : ∀ (f : Trig → ℝ) (o : Op), (∀ s p, ¬ Op.same p o → f (s.step p) = f s) →
      (∀ s : Trig, f (s.step o) = v) → (∀ p ∈ ps, ¬ Op.same p o) → f (s o) = v := by
    intro f o h1 h2 h3
    rw [hs, run_append, run_cons]
    have : ∀ (ps : List Op) (s : Trig), (∀ p ∈ ps, ¬ Op.same p o) → f (s.run ps) = f s := by
      intro ps
      induction ps with
      | nil => intro s _; rfl
      | cons p ps ih =>
        intro s h
        rw [run_cons, ih _ (fun q hq => h q (List.mem_cons_of_mem _ hq)), h1 _ _ (h p List.mem_cons_self)]
    rw [this ps _ h3, h2]
  have other : ∀ (s : Trig) (p : Op),
      (¬ Op.same p (.setAmplitude v) → (s.step p).amplitude = s.amplitude) ∧
      (¬ Op.same p (.setSinPhase v) → (s.step p).sinPhase = s.sinPhase) ∧
      (¬ Op.same p (.setCosPhase v) → (s.step p).cosPhase = s.cosPhase) ∧
      (¬ Op.same p (.setSteps v) → (s.step p).steps = s.steps) := by
    intro s p
    cases p with
    | setSteps w => exact ⟨fun _ => rfl, fun _ => rfl, fun _ => rfl, fun h => absurd trivial h⟩
    | setAmplitude w =>
      refine ⟨fun h => absurd trivial h, ?_, ?_, ?_⟩ <;> intro _ <;> unfold Trig.step <;> dsimp only <;> split <;> rfl
    | setSinPhase w =>
      refine ⟨?_, fun h => absurd trivial h, ?_, ?_⟩ <;> intro _ <;> unfold Trig.step <;> dsimp only <;> split <;> rfl
    | setCosPhase w =>
      refine ⟨?_, ?_, fun h => absurd trivial h, ?_⟩ <;> intro _ <;> unfold Trig.step <;> dsimp only <;> split <;> rfl
    | dispatch k =>
      refine ⟨?_, ?_, ?_, ?_⟩ <;> intro _ <;> unfold Trig.step Trig.dispatch <;> dsimp only <;> split <;> rfl
  refine ⟨key _ _ (fun s p => (other s p).1) ?_, key _ _ (fun s p => (other s p).2.1) ?_,
    key _ _ (fun s p => (other s p).2.2.1) ?_, key _ _ (fun s p => (other s p).2.2.2) (fun s => rfl)⟩ <;>
  · intro s
    unfold Trig.step
    dsimp only
    split
    · assumption
    · rfl

/-- C102: neither value is ever larger than the amplitude. -/
theorem C102_bounded (os : List Op) : |(Trig.init.run os).sin| ≤ |(Trig.init.run os).amplitude| ∧
    (CosOk (Trig.init.run os) → |(Trig.init.run os).cos| ≤ |(Trig.init.run os).amplitude|) := by
  constructor
  · rw [C102_sin os, abs_mul]
    exact mul_le_of_le_one_right (abs_nonneg _) (Real.abs_sin_le_one _)
  · intro h
    rw [h, abs_mul]
    exact mul_le_of_le_one_right (abs_nonneg _) (Real.abs_cos_le_one _)

/-- What a dispatch shows. -/
noncomputable def shown (s : Trig) (k : Nat) : ℝ × ℝ := ((s.dispatch k).1.sin, (s.dispatch k).1.cos)

theorem shown_eq (s : Trig) (k : Nat) (h : s.steps ≠ 0) :
    shown s k = (s.amplitude * Real.sin (2 * Real.pi * k / s.steps + s.sinPhase),
      s.amplitude * Real.cos (2 * Real.pi * k / s.steps + s.cosPhase)) := by
  unfold shown
  rw [(dispatched s k h).1]
  have : 2 * Real.pi / s.steps * (k : ℝ) = 2 * Real.pi * k / s.steps := by ring
  show (s.amplitude * Real.sin (2 * Real.pi / s.steps * (k : ℝ) + s.sinPhase),
      s.amplitude * Real.cos (2 * Real.pi / s.steps * (k : ℝ) + s.cosPhase)) = _
  rw [this]

/-- C102: with `n` steps, `n` dispatches are one period, wherever one starts. -/
theorem C102_period (s : Trig) (n : Nat) (h0 : 0 < n) (hn : s.steps = n) (k m : Nat) :
    shown s (k + m * n) = shown s k := by
  have hn0 : (n : ℝ) ≠ 0 := Nat.cast_ne_zero.mpr (by omega)
  rw [shown_eq s _ (hn ▸ hn0), shown_eq s _ (hn ▸ hn0), hn]
  have e : ∀ p : ℝ, 2 * Real.pi * ((k + m * n : Nat) : ℝ) / n + p = (2 * Real.pi * k / n + p) + m * (2 * Real.pi) := by
    intro p
    push_cast
    field_simp
    ring
  rw [e, e, Real.sin_add_nat_mul_two_pi, Real.cos_add_nat_mul_two_pi]

/-- C102: until a command changes something, dispatch `k` shows sine and cosine of `k` times a 64th of a turn. -/
theorem C102_default (os : List Op) (h : ∀ o ∈ os, ∃ j, o = .dispatch j) (k : Nat) :
    (Trig.init.run (os ++ [.dispatch k])).sin = Real.sin (2 * Real.pi * k / 64) ∧
      (Trig.init.run (os ++ [.dispatch k])).cos = Real.cos (2 * Real.pi * k / 64) := by
  have keep : ∀ (os : List Op), (∀ o ∈ os, ∃ j, o = .dispatch j) → ∀ s : Trig,
      (s.run os).steps = s.steps ∧ (s.run os).amplitude = s.amplitude ∧ (s.run os).sinPhase = s.sinPhase ∧
        (s.run os).cosPhase = s.cosPhase := by
    intro os
    induction os with
    | nil => intro _ s; exact ⟨rfl, rfl, rfl, rfl⟩
    | cons o os ih =>
      intro h s
      obtain ⟨j, rfl⟩ := h o List.mem_cons_self
      obtain ⟨a, b, c, d⟩ := ih (fun o ho => h o (List.mem_cons_of_mem _ ho)) (s.dispatch j).1
      have e : (s.dispatch j).1.steps = s.steps ∧ (s.dispatch j).1.amplitude = s.amplitude ∧
          (s.dispatch j).1.sinPhase = s.sinPhase ∧ (s.dispatch j).1.cosPhase = s.cosPhase := by
        unfold Trig.dispatch
        split <;> exact ⟨rfl, rfl, rfl, rfl⟩
      rw [run_cons]
      exact ⟨a.trans e.1, b.trans e.2.1, c.trans e.2.2.1, d.trans e.2.2.2⟩
  obtain ⟨h1, -⟩ := keep os h Trig.init
  obtain ⟨-, b, c, d⟩ := keep (os ++ [.dispatch k]) (by
    intro o ho
    rcases List.mem_append.mp ho with ho | ho
    · exact h o ho
    · exact ⟨k, List.mem_singleton.mp ho⟩) Trig.init
  obtain ⟨w1, w2⟩ := C102_wave os [] k 64 h1 (by norm_num) (fun j hj => by cases hj) _ rfl
  rw [b, c] at w1
  rw [b, d] at w2
  refine ⟨w1.trans ?_, w2.trans ?_⟩
  · show 1 * Real.sin (_ + 0) = _
    rw [one_mul, add_zero]
  · show 1 * Real.cos (_ + 0) = _
    rw [one_mul, add_zero]

/-- C102: with equal phases the values are a point on the circle of the amplitude. -/
theorem C102_circle (s : Trig) (h : s.steps ≠ 0) (hp : s.sinPhase = s.cosPhase) (k : Nat) :
    (shown s k).1 ^ 2 + (shown s k).2 ^ 2 = s.amplitude ^ 2 := by
  rw [shown_eq s k h, hp]
  have := Real.sin_sq_add_cos_sq (2 * Real.pi * k / s.steps + s.cosPhase)
  calc _ = s.amplitude ^ 2 * (Real.sin (2 * Real.pi * k / s.steps + s.cosPhase) ^ 2 +
          Real.cos (2 * Real.pi * k / s.steps + s.cosPhase) ^ 2) := by ring
    _ = _ := by rw [this, mul_one]

/-- C102: the wave goes on over the end of the counter if the number of steps divides 2^32, as the default does:
the dispatch with counter 0 that follows the one with counter 2^32 - 1 shows what the 2^32nd should. -/
theorem C102_wrap_partial (s : Trig) (n : Nat) (h0 : 0 < n) (hn : s.steps = n) (hd : n ∣ 2 ^ 32) :
    shown s 0 = shown s (2 ^ 32) := by
  obtain ⟨m, hm⟩ := hd
  have := C102_period s n h0 hn 0 m
  rw [Nat.zero_add, Nat.mul_comm, ← hm] at this
  exact this.symm

/-- C102 fails for any other number of steps: when the counter starts again, the wave jumps. -/
theorem C102_wrap_fails (s : Trig) (n : Nat) (h0 : 0 < n) (hn : s.steps = n) (hd : ¬ n ∣ 2 ^ 32)
    (ha : s.amplitude ≠ 0) (hp : s.sinPhase = s.cosPhase) : shown s 0 ≠ shown s (2 ^ 32) := by
  intro h
  have hn0 : (n : ℝ) ≠ 0 := Nat.cast_ne_zero.mpr (by omega)
  rw [shown_eq s _ (hn ▸ hn0), shown_eq s _ (hn ▸ hn0), hn, hp] at h
  have e0 : 2 * Real.pi * ((0 : Nat) : ℝ) / n + s.cosPhase = s.cosPhase := by simp
  rw [e0] at h
  generalize hx : 2 * Real.pi * ((2 ^ 32 : Nat) : ℝ) / n = x at h
  have h1 := mul_left_cancel₀ ha (congrArg Prod.fst h)
  have h2 := mul_left_cancel₀ ha (congrArg Prod.snd h)
  have hc : Real.cos x = 1 := by
    have : Real.cos x = Real.cos ((x + s.cosPhase) - s.cosPhase) := by congr 1; ring
    rw [this, Real.cos_sub, ← h1, ← h2]
    have := Real.sin_sq_add_cos_sq s.cosPhase
    nlinarith
  obtain ⟨m, hm⟩ := (Real.cos_eq_one_iff x).mp hc
  apply hd
  have hpi := Real.pi_ne_zero
  have : (m : ℝ) * n = (2 ^ 32 : Nat) := by
    rw [← hx] at hm
    field_simp at hm
    linarith
  have hz : m * (n : ℤ) = ((2 ^ 32 : Nat) : ℤ) := by exact_mod_cast this
  exact Int.natCast_dvd_natCast.mp ⟨m, by rw [← hz]; ring⟩

/-- C102 fails for zero steps, which a command may set: every dispatch raises, and shows nothing; by C53 the task
ends with its first and cannot be started again. -/
theorem C102_zero_fails (s : Trig) (k : Nat) : ((s.step (.setSteps 0)).dispatch k).2 = false ∧
    shown (s.step (.setSteps 0)) k = (s.sin, s.cos) := by
  unfold shown Trig.dispatch
  rw [if_pos (show (s.step (.setSteps 0)).steps = 0 from rfl)]
  exact ⟨rfl, rfl⟩

/-- Events that leave `cos` alone. -/
def Op.quiet : Op → Prop
  | .setSinPhase _ => True
  | .setSteps _ => True
  | .setAmplitude v => v = 1
  | .setCosPhase v => v = 0
  | .dispatch _ => False

/-- C102 fails before the first dispatch: `cos` shows 0, which is not the amplitude times the cosine of
nothing. -/
theorem C102_first_fails (os : List Op) (h : ∀ o ∈ os, o.quiet) :
    (Trig.init.run os).cos = 0 ∧ ¬ CosOk (Trig.init.run os) := by
  have key : ∀ (os : List Op) (s : Trig), (∀ o ∈ os, o.quiet) → s.cos = 0 → s.angle = 0 → s.amplitude = 1 →
      s.cosPhase = 0 → (s.run os).cos = 0 ∧ (s.run os).angle = 0 ∧ (s.run os).amplitude = 1 ∧
        (s.run os).cosPhase = 0 := by
    intro os
    induction os with
    | nil => intro s _ h1 h2 h3 h4; exact ⟨h1, h2, h3, h4⟩
    | cons o os ih =>
      intro s hq h1 h2 h3 h4
      have ho := hq o List.mem_cons_self
      have hr : ∀ o ∈ os, o.quiet := fun o m => hq o (List.mem_cons_of_mem _ m)
      rw [run_cons]
      cases o with
      | setSteps v => exact ih _ hr h1 h2 h3 h4
      | setSinPhase v =>
        unfold Trig.step
        dsimp only
        split
        · exact ih _ hr h1 h2 h3 h4
        · exact ih _ hr h1 h2 h3 h4
      | setAmplitude v =>
        have hv : s.amplitude = v := by rw [h3]; exact ho.symm
        unfold Trig.step
        dsimp only
        rw [if_pos hv]
        exact ih _ hr h1 h2 h3 h4
      | setCosPhase v =>
        have hv : s.cosPhase = v := by rw [h4]; exact ho.symm
        unfold Trig.step
        dsimp only
        rw [if_pos hv]
        exact ih _ hr h1 h2 h3 h4
      | dispatch k => exact ho.elim
  obtain ⟨h1, h2, h3, h4⟩ := key os Trig.init h rfl rfl rfl rfl
  refine ⟨h1, ?_⟩
  unfold CosOk
  rw [h1, h2, h3, h4]
  simp

/-! ### Telemetry -/

/-- `SampleTelemetryTask`: `metrics.dispatches`, and the samples taken and not yet flushed by the task (the framer
may have sent some of them because a datagram was full, C26), and whether it runs. -/
structure Tele where
  dispatches : Nat
  pending : Nat
  running : Bool
  deriving DecidableEq

/-- `dispatch`, telemetry/sample.py 91–99, within the loop (C101): `n` is `flush_count`, which a command may have
changed since the dispatch before. Python raises for a remainder by zero. -/
def Tele.dispatch (s : Tele) (n : Nat) : Tele :=
  if s.running then
    let s := { s with pending := s.pending + 1 }
    if n = 0 then { s with running := false }
    else
      { s with
        pending := if s.dispatches % n = 0 then 0 else s.pending
        dispatches := (s.dispatches + 1) % 2 ^ 32 }
  else s

def Tele.run (s : Tele) (ns : List Nat) : Tele := ns.foldl Tele.dispatch s

theorem tele_cons (s : Tele) (n : Nat) (ns : List Nat) : s.run (n :: ns) = (s.dispatch n).run ns := rfl

theorem tele_snoc (s : Tele) (n : Nat) (ns : List Nat) : s.run (ns ++ [n]) = (s.run ns).dispatch n := by
  unfold Tele.run
  rw [List.foldl_append]
  rfl

/-- A new task. -/
def Tele.init : Tele := ⟨0, 0, true⟩

theorem dispatch_running (s : Tele) (n : Nat) (hr : s.running = true) (hn : n ≠ 0) :
    s.dispatch n = ⟨(s.dispatches + 1) % 2 ^ 32, if s.dispatches % n = 0 then 0 else s.pending + 1, true⟩ := by
  unfold Tele.dispatch
  rw [if_pos hr]
  dsimp only
  rw [if_neg hn]
  simp only [hr]

/-- C102: with a flush count of `n`, what has not been flushed after `k + 1` dispatches, over any number of ends
of the counter, is exactly the counter's remainder: less than `n`. -/
theorem C102_flush (n : Nat) (hn : 0 < n) (k : Nat) :
    Tele.init.run (List.replicate (k + 1) n) = ⟨(k + 1) % 2 ^ 32, k % 2 ^ 32 % n, true⟩ := by
  induction k with
  | zero =>
    rw [List.replicate_one, tele_cons, dispatch_running _ _ rfl (by omega)]
    simp [Tele.init, Tele.run]
  | succ k ih =>
    rw [List.replicate_succ', tele_snoc, ih, dispatch_running _ _ rfl (by omega)]
    dsimp only
    congr 1
    · rw [Nat.mod_add_mod]
    · by_cases hw : (k + 1) % 2 ^ 32 = 0
      · rw [hw]; simp
      · have e : (k + 1) % 2 ^ 32 = k % 2 ^ 32 + 1 := by omega
        rw [e]
        generalize k % 2 ^ 32 = d
        split
        · rename_i h; exact h.symm
        · rename_i h
          have := Nat.add_mod d 1 n
          by_cases h1 : n = 1
          · subst h1; exact absurd (Nat.mod_one _) h
          · have hlt := Nat.mod_lt d hn
            by_cases hl : d % n + 1 = n
            · exact absurd (by rw [Nat.add_mod, Nat.mod_eq_of_lt (by omega : 1 < n), hl, Nat.mod_self]) h
            · rw [this, Nat.mod_eq_of_lt (show 1 < n by omega), Nat.mod_eq_of_lt (show d % n + 1 < n by omega)]

/-- C102: at no time more than `n` samples are waiting: the limit its description gives. -/
theorem C102_flush_limit (n : Nat) (hn : 0 < n) (k : Nat) :
    (Tele.init.run (List.replicate k n)).pending < n := by
  cases k with
  | zero => exact hn
  | succ k => rw [C102_flush n hn k]; exact Nat.mod_lt _ hn

theorem some_prime (d : Nat) (h0 : 0 < d) (h1 : d < 2 ^ 32) : ∃ n, 2 ≤ n ∧ n ≤ 29 ∧ ¬ n ∣ d := by
  by_contra hc
  have hall : ∀ n, 2 ≤ n → n ≤ 29 → n ∣ d := by
    intro n h2 h3
    by_contra h
    exact hc ⟨n, h2, h3, h⟩
  have d2 := hall 2 (by omega) (by omega)
  have d6 : 2 * 3 ∣ d := Nat.Coprime.mul_dvd_of_dvd_of_dvd (by decide +kernel) d2 (hall 3 (by omega) (by omega))
  have d30 : 2 * 3 * 5 ∣ d := Nat.Coprime.mul_dvd_of_dvd_of_dvd (by decide +kernel) d6 (hall 5 (by omega) (by omega))
  have d7 : 2 * 3 * 5 * 7 ∣ d := Nat.Coprime.mul_dvd_of_dvd_of_dvd (by decide +kernel) d30 (hall 7 (by omega) (by omega))
  have d11 : 2 * 3 * 5 * 7 * 11 ∣ d := Nat.Coprime.mul_dvd_of_dvd_of_dvd (by decide +kernel) d7 (hall 11 (by omega) (by omega))
  have d13 : 2 * 3 * 5 * 7 * 11 * 13 ∣ d :=
    Nat.Coprime.mul_dvd_of_dvd_of_dvd (by decide +kernel) d11 (hall 13 (by omega) (by omega))
  have d17 : 2 * 3 * 5 * 7 * 11 * 13 * 17 ∣ d :=
    Nat.Coprime.mul_dvd_of_dvd_of_dvd (by decide +kernel) d13 (hall 17 (by omega) (by omega))
  have d19 : 2 * 3 * 5 * 7 * 11 * 13 * 17 * 19 ∣ d :=
    Nat.Coprime.mul_dvd_of_dvd_of_dvd (by decide +kernel) d17 (hall 19 (by omega) (by omega))
  have d23 : 2 * 3 * 5 * 7 * 11 * 13 * 17 * 19 * 23 ∣ d :=
    Nat.Coprime.mul_dvd_of_dvd_of_dvd (by decide +kernel) d19 (hall 23 (by omega) (by omega))
  have d29 : 2 * 3 * 5 * 7 * 11 * 13 * 17 * 19 * 23 * 29 ∣ d :=
    Nat.Coprime.mul_dvd_of_dvd_of_dvd (by decide +kernel) d23 (hall 29 (by omega) (by omega))
  have := Nat.le_of_dvd h0 d29
  omega

/-- C102 fails for flush counts that change: from any state after a dispatch, there are flush counts, none larger
than 29, with which the task flushes nothing until its counter starts again, however many dispatches that
is. -/
theorem C102_change_fails (k : Nat) : ∀ (s : Tele), s.running = true → 0 < s.dispatches →
    s.dispatches + k ≤ 2 ^ 32 → ∃ ns : List Nat, ns.length = k ∧ (∀ n ∈ ns, 2 ≤ n ∧ n ≤ 29) ∧
      (s.run ns).pending = s.pending + k ∧ (s.run ns).running = true := by
  induction k with
  | zero => intro s hr _ _; exact ⟨[], rfl, fun n h => by simp at h, rfl, hr⟩
  | succ k ih =>
    intro s hr h0 hk
    obtain ⟨n, h2, h29, hd⟩ := some_prime s.dispatches h0 (by omega)
    have e := dispatch_running s n hr (by omega)
    rw [if_neg (fun h => hd (Nat.dvd_of_mod_eq_zero h))] at e
    rcases Nat.eq_zero_or_pos k with rfl | hkp
    · refine ⟨[n], rfl, ?_, ?_, ?_⟩
      · intro m hm
        rw [List.mem_singleton.mp hm]
        exact ⟨h2, h29⟩
      · rw [tele_cons, e]; rfl
      · rw [tele_cons, e]; rfl
    · have hlt : s.dispatches + 1 < 2 ^ 32 := by omega
      rw [Nat.mod_eq_of_lt hlt] at e
      obtain ⟨ns, l1, l2, l3, l4⟩ := ih (s.dispatch n) (by rw [e]) (by rw [e]; exact Nat.succ_pos _) (by rw [e]; dsimp only; omega)
      refine ⟨n :: ns, by rw [List.length_cons, l1], ?_, ?_, by rw [tele_cons]; exact l4⟩
      · intro m hm
        rcases List.mem_cons.mp hm with rfl | hm
        · exact ⟨h2, h29⟩
        · exact l2 m hm
      · rw [tele_cons, l3, e]
        dsimp only
        omega

/-- C102 fails for a flush count of zero, which a command may set: the sample is taken, then the dispatch raises
and the task is over. -/
theorem C102_flush_zero_fails (s : Tele) (hr : s.running = true) (ns : List Nat) :
    s.run (0 :: ns) = ⟨s.dispatches, s.pending + 1, false⟩ := by
  rw [tele_cons]
  have e : s.dispatch 0 = ⟨s.dispatches, s.pending + 1, false⟩ := by
    unfold Tele.dispatch
    rw [if_pos hr]
    rfl
  rw [e]
  generalize ht : Tele.mk s.dispatches (s.pending + 1) false = t
  have hf : t.running = false := by rw [← ht]
  clear ht e
  induction ns with
  | nil => rfl
  | cons n ns ih =>
    have hd : t.dispatch n = t := by unfold Tele.dispatch; rw [hf]; rfl
    rw [tele_cons, hd]
    exact ih

/-! ### Cases -/

/-- Four steps to a turn, amplitude 2. -/
noncomputable def exTrig : Trig := Trig.init.run [.setSteps 4, .setAmplitude 2]

theorem exTrig_eq : exTrig.steps = 4 ∧ exTrig.amplitude = 2 ∧ exTrig.sinPhase = 0 ∧ exTrig.cosPhase = 0 := by
  have h : (1 : ℝ) ≠ 2 := by norm_num
  simp [exTrig, Trig.run, Trig.step, Trig.init, Trig.updateSin, Trig.updateCos]

theorem C102_cases :
    shown exTrig 0 = (0, 2) ∧ shown exTrig 1 = (2, 0) ∧ shown exTrig 2 = (0, -2) ∧
    shown exTrig 5 = shown exTrig 1 ∧
    (Trig.init.run [.setSinPhase 1, .setSteps 10, .setAmplitude 1]).cos = 0 ∧
    Tele.init.run [10, 10, 10] = ⟨3, 2, true⟩ ∧
    Tele.init.run [10, 2, 3, 2, 3, 2, 5] = ⟨7, 6, true⟩ ∧
    Tele.init.run [10, 10, 0, 10] = ⟨2, 2, false⟩ := by
  obtain ⟨h1, h2, h3, h4⟩ := exTrig_eq
  have h0 : exTrig.steps ≠ 0 := by rw [h1]; norm_num
  refine ⟨?_, ?_, ?_, ?_, ?_, by decide, by decide, by decide⟩
  · rw [shown_eq _ _ h0, h1, h2, h3, h4]; simp
  · rw [shown_eq _ _ h0, h1, h2, h3, h4]
    have : 2 * Real.pi * ((1 : Nat) : ℝ) / 4 + 0 = Real.pi / 2 := by push_cast; ring
    rw [this, Real.sin_pi_div_two, Real.cos_pi_div_two]
    simp
  · rw [shown_eq _ _ h0, h1, h2, h3, h4]
    have : 2 * Real.pi * ((2 : Nat) : ℝ) / 4 + 0 = Real.pi := by push_cast; ring
    rw [this, Real.sin_pi, Real.cos_pi]
    simp
  · exact C102_period exTrig 4 (by omega) (by rw [h1]; norm_num) 1 1
  · exact (C102_first_fails _ (by
      intro o ho
      simp only [List.mem_cons, List.not_mem_nil, or_false] at ho
      rcases ho with rfl | rfl | rfl
      · trivial
      · trivial
      · rfl)).1

end Verif.Driven
