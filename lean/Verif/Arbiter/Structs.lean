import Verif.Base
/-!
C116: the life of a struct: the names its environment gets (`mixins/environment.py`, `channel/environment/create.py`
under namespaces), building it and its final poll (`net/arbiter/info.py` 53–88, `net/arbiter/base.py` 220–321), the
`poll` command (`struct/__init__.py` 52–68) and sources of values (`control/source.py`).

vcorelib's `Namespace` is assumed: a stack of names that `names_pushed` extends and shortens again (also when an
exception passes), joined with dots. Python's `int` and `float` of a text are parameters.
-/
namespace Verif.Structs

/-! ### Names -/

abbrev Name := List Char

/-- `Namespace.namespace`: the names on the stack and the given one, joined by the delimiter. -/
def join (names : List Name) : Name := List.intercalate ['.'] names

/-- What code that sets up an environment does: create a channel, or do something with names pushed
(`with self.env.names_pushed(…)`). -/
inductive Op where
  | channel (name : Name)
  | pushed (names : List Name) (body : List Op)

/-- An environment: the stack of its namespace and the names of its channels in order. -/
structure Env where
  stack : List Name
  names : List Name
  finalized : Bool
  deriving DecidableEq

/-- `channel`, create.py 38–83, with `Registry.register_dict` (registry/__init__.py 81–95): a name that is taken or
not valid gives no channel, which fails an assertion. Simplification: the rest of a channel (type, enumeration,
default) is accepted. -/
def Env.channel (valid : Name → Bool) (e : Env) (name : Name) : Env × Option PyErr :=
  if e.finalized then (e, some .assertion)
  else
    let full := join (e.stack ++ [name])
    if full ∈ e.names || !valid full then (e, some .assertion)
    else ({ e with names := e.names ++ [full] }, none)

mutual
/-- One operation. -/
def Env.op (valid : Name → Bool) (e : Env) : Op → Env × Option PyErr
  | .channel n => e.channel valid n
  | .pushed ns body =>
    let r := Env.ops valid { e with stack := e.stack ++ ns } body
    ({ r.1 with stack := e.stack }, r.2)

/-- Operations in order, up to the first that raises. -/
def Env.ops (valid : Name → Bool) (e : Env) : List Op → Env × Option PyErr
  | [] => (e, none)
  | o :: rest =>
    match Env.op valid e o with
    | (e, some x) => (e, some x)
    | (e, none) => Env.ops valid e rest
end

/-- `register_task_metrics`, mixins/environment.py 34–80. -/
def taskMetrics (ns : Name) (names : List Name) : Op :=
  .pushed (ns :: names)
    [.channel "dispatches".toList, .channel "rate_hz".toList, .channel "average_s".toList, .channel "max_s".toList,
      .channel "min_s".toList, .channel "overruns".toList]

/-- `register_channel_metrics`, 82–111. -/
def channelMetrics (name : Name) : Op :=
  .pushed [name]
    [.channel "messages".toList, .channel "messages_rate".toList, .channel "bytes".toList, .channel "kbps".toList]

/-- `register_connection_metrics`, 113–127. -/
def connMetrics (ns : Name) (names : List Name) : Op :=
  .pushed (ns :: names) [channelMetrics "tx".toList, channelMetrics "rx".toList]

mutual
/-- The paths of the channels an operation asks for, below a stack of names. -/
def paths (stack : List Name) : Op → List (List Name)
  | .channel n => [stack ++ [n]]
  | .pushed ns body => pathsAll (stack ++ ns) body

def pathsAll (stack : List Name) : List Op → List (List Name)
  | [] => []
  | o :: rest => paths stack o ++ pathsAll stack rest
end

/-- Adding names one after the other, as a specification: as many as are new and valid. -/
def adds (valid : Name → Bool) (e : Env) : List Name → Env × Option PyErr
  | [] => (e, none)
  | n :: rest =>
    if e.finalized ∨ n ∈ e.names ∨ valid n = false then (e, some .assertion)
    else adds valid { e with names := e.names ++ [n] } rest

theorem adds_stack (valid : Name → Bool) (e : Env) (s : List Name) (ns : List Name) :
    adds valid { e with stack := s } ns = ({ (adds valid e ns).1 with stack := s }, (adds valid e ns).2) := by
  induction ns generalizing e with
  | nil => rfl
  | cons n rest ih =>
    by_cases h : e.finalized ∨ n ∈ e.names ∨ valid n = false
    · simp [adds, h]
    · simp only [adds, h, if_false]
      exact ih { e with names := e.names ++ [n] }

theorem adds_stack_same (valid : Name → Bool) (e : Env) (ns : List Name) :
    (adds valid e ns).1.stack = e.stack := by
  induction ns generalizing e with
  | nil => rfl
  | cons n rest ih =>
    by_cases h : e.finalized ∨ n ∈ e.names ∨ valid n = false
    · simp [adds, h]
    · simp only [adds, h, if_false]
      exact ih _

theorem adds_append (valid : Name → Bool) (e : Env) (a b : List Name) :
    adds valid e (a ++ b) = match adds valid e a with
      | (e, some x) => (e, some x)
      | (e, none) => adds valid e b := by
  induction a generalizing e with
  | nil => rfl
  | cons n rest ih =>
    by_cases h : e.finalized ∨ n ∈ e.names ∨ valid n = false
    · simp [adds, h]
    · simp only [List.cons_append, adds, h, if_false]
      exact ih _

mutual
theorem op_eq (valid : Name → Bool) (e : Env) (o : Op) :
    e.op valid o = adds valid e ((paths e.stack o).map join) := by
  cases o with
  | channel n =>
    by_cases hf : e.finalized = true
    · simp [Env.op, Env.channel, paths, adds, hf]
    · by_cases hm : join (e.stack ++ [n]) ∈ e.names
      · simp [Env.op, Env.channel, paths, adds, hf, hm]
      · cases hv : valid (join (e.stack ++ [n])) <;> simp [Env.op, Env.channel, paths, adds, hf, hm, hv]
  | pushed ns body =>
    simp only [Env.op, paths]
    rw [ops_eq valid { e with stack := e.stack ++ ns } body, adds_stack]
    simp only []
    congr 1
    have := adds_stack_same valid e ((pathsAll (e.stack ++ ns) body).map join)
    cases h : (adds valid e ((pathsAll (e.stack ++ ns) body).map join)).1
    rw [h] at this
    simp only at this
    rw [this]

theorem ops_eq (valid : Name → Bool) (e : Env) (os : List Op) :
    e.ops valid os = adds valid e ((pathsAll e.stack os).map join) := by
  cases os with
  | nil => rfl
  | cons o rest =>
    simp only [Env.ops, pathsAll, List.map_append, adds_append]
    rw [op_eq valid e o]
    have hs := adds_stack_same valid e ((paths e.stack o).map join)
    cases h : adds valid e ((paths e.stack o).map join) with
    | mk e' x =>
      rw [h] at hs
      cases x with
      | some x => rfl
      | none =>
        simp only
        rw [ops_eq valid e' rest, show e'.stack = e.stack from hs]
end

theorem adds_spec (valid : Name → Bool) (e : Env) (hf : e.finalized = false) (ns : List Name) :
    ∃ k, k ≤ ns.length ∧ (adds valid e ns).1 = { e with names := e.names ++ ns.take k } ∧
      (∀ n ∈ ns.take k, valid n = true ∧ n ∉ e.names) ∧ (ns.take k).Nodup ∧
      ((adds valid e ns).2 = none ↔ k = ns.length) ∧
      ((adds valid e ns).2 ≠ none →
        (adds valid e ns).2 = some .assertion ∧
        ∃ h : k < ns.length, ns[k] ∈ e.names ++ ns.take k ∨ valid ns[k] = false) := by
  induction ns generalizing e with
  | nil => exact ⟨0, by simp [adds]⟩
  | cons n rest ih =>
    by_cases h : e.finalized ∨ n ∈ e.names ∨ valid n = false
    · refine ⟨0, by simp, by simp [adds, h], by simp, by simp, by simp [adds, h], ?_⟩
      intro _
      refine ⟨by simp [adds, h], by simp, ?_⟩
      simpa [hf] using h
    · obtain ⟨k, h1, h2, h3, h4, h5, h6⟩ := ih { e with names := e.names ++ [n] } hf
      have ha : adds valid e (n :: rest) = adds valid { e with names := e.names ++ [n] } rest := by
        simp only [adds, h, if_false]
      have hn : n ∉ e.names ∧ valid n = true := by
        constructor
        · exact fun x => h (Or.inr (Or.inl x))
        · cases hv : valid n
          · exact absurd (Or.inr (Or.inr hv)) h
          · rfl
      refine ⟨k + 1, by simpa using h1, ?_, ?_, ?_, ?_, ?_⟩
      · rw [ha, h2]
        simp
      · intro m hm
        rw [List.take_succ_cons, List.mem_cons] at hm
        rcases hm with rfl | hm
        · exact ⟨hn.2, hn.1⟩
        · have := h3 m hm
          exact ⟨this.1, fun x => this.2 (by simp [x])⟩
      · rw [List.take_succ_cons, List.nodup_cons]
        exact ⟨fun x => (h3 n x).2 (by simp), h4⟩
      · rw [ha, h5]
        simp
      · rw [ha]
        intro x
        obtain ⟨y, z, w⟩ := h6 x
        refine ⟨y, by simpa using z, ?_⟩
        simpa [or_assoc] using w

/-- C116. Setting up an environment, with names pushed to any depth and whether or not something raises: the stack of
names is afterwards what it was, and the channels added are the asked ones up to some point, in the order asked, each
named by its path joined with dots, all new, valid and different. Everything was added iff nothing raised; otherwise
the next name was already there or is not valid. -/
theorem C116_names (valid : Name → Bool) (e : Env) (hf : e.finalized = false) (os : List Op) :
    ∃ k, (e.ops valid os).1 =
        { e with names := e.names ++ ((pathsAll e.stack os).take k).map (List.intercalate ['.']) } ∧
      (∀ n ∈ ((pathsAll e.stack os).take k).map (List.intercalate ['.']), valid n = true ∧ n ∉ e.names) ∧
      (((pathsAll e.stack os).take k).map (List.intercalate ['.'])).Nodup ∧
      ((e.ops valid os).2 = none ↔ k = (pathsAll e.stack os).length) ∧
      ((e.ops valid os).2 ≠ none → (e.ops valid os).2 = some .assertion ∧
        ∃ p, (pathsAll e.stack os)[k]? = some p ∧
          (List.intercalate ['.'] p ∈ e.names ++ ((pathsAll e.stack os).take k).map (List.intercalate ['.']) ∨
            valid (List.intercalate ['.'] p) = false)) := by
  obtain ⟨k, h1, h2, h3, h4, h5, h6⟩ := adds_spec valid e hf ((pathsAll e.stack os).map join)
  rw [← ops_eq] at h2 h5 h6
  rw [← List.map_take] at h2 h3 h4 h6
  refine ⟨k, h2, h3, h4, by simpa using h5, fun x => ?_⟩
  obtain ⟨y, z, w⟩ := h6 x
  have z' : k < (pathsAll e.stack os).length := by simpa using z
  refine ⟨y, (pathsAll e.stack os)[k], by simp [z'], ?_⟩
  rw [List.getElem_map] at w
  exact w

/-- C116. After an environment is finalized nothing can be added: asking for any channel raises and changes
nothing. -/
theorem C116_finalized (valid : Name → Bool) (e : Env) (hf : e.finalized = true) (os : List Op) :
    (e.ops valid os).1 = e ∧ ((e.ops valid os).2 = none ↔ pathsAll e.stack os = []) := by
  rw [ops_eq]
  cases h : pathsAll e.stack os with
  | nil => simp [adds]
  | cons p rest => simp [adds, hf]

theorem join_snoc (l : List Name) (h : l ≠ []) (n : Name) : join (l ++ [n]) = join l ++ '.' :: n := by
  induction l with
  | nil => exact absurd rfl h
  | cons a rest ih =>
    cases rest with
    | nil => simp [join, List.intercalate, List.intersperse]
    | cons b rest =>
      have := ih (by simp)
      simp only [join, List.intercalate, List.cons_append, List.intersperse, List.flatten_cons] at this ⊢
      rw [this]
      simp

/-- A registration of metrics: of a task or of a connection, the namespace and further names. -/
structure Reg where
  task : Bool
  ns : Name
  names : List Name

def Reg.op (r : Reg) : Op := if r.task then taskMetrics r.ns r.names else connMetrics r.ns r.names

/-- What follows the common part in the names of metrics. -/
def suffixes (task : Bool) : List Name :=
  if task then
    [".dispatches".toList, ".rate_hz".toList, ".average_s".toList, ".max_s".toList, ".min_s".toList,
      ".overruns".toList]
  else
    [".tx.messages".toList, ".tx.messages_rate".toList, ".tx.bytes".toList, ".tx.kbps".toList,
      ".rx.messages".toList, ".rx.messages_rate".toList, ".rx.bytes".toList, ".rx.kbps".toList]

theorem reg_paths (stack : List Name) (r : Reg) :
    (paths stack r.op).map join =
      (suffixes r.task).map (join (stack ++ r.ns :: r.names) ++ ·) := by
  have ne : stack ++ r.ns :: r.names ≠ [] := by simp
  have j1 (n : Name) : join (stack ++ r.ns :: (r.names ++ [n])) = join (stack ++ r.ns :: r.names) ++ '.' :: n := by
    have := join_snoc _ ne n
    simpa using this
  have j2 (n m : Name) : join (stack ++ r.ns :: (r.names ++ [n, m])) =
      join (stack ++ r.ns :: r.names) ++ '.' :: n ++ '.' :: m := by
    have := join_snoc ((stack ++ r.ns :: r.names) ++ [n]) (by simp) m
    rw [join_snoc _ ne n] at this
    simpa using this
  cases h : r.task
  · simp only [Reg.op, h, Bool.false_eq_true, if_false, connMetrics, channelMetrics, paths, pathsAll, suffixes,
      List.map_cons, List.map_nil, List.append_nil, List.cons_append, List.nil_append,
      List.append_assoc, j2]
    rfl
  · simp only [Reg.op, h, if_true, taskMetrics, paths, pathsAll, suffixes,
      List.map_cons, List.map_nil, List.append_nil, List.cons_append, List.nil_append,
      List.append_assoc, j1]
    rfl

theorem adds_none_iff (valid : Name → Bool) (e : Env) (hf : e.finalized = false) (ns : List Name) :
    (adds valid e ns).2 = none ↔ ns.Nodup ∧ ∀ n ∈ ns, valid n = true ∧ n ∉ e.names := by
  obtain ⟨k, h1, h2, h3, h4, h5, h6⟩ := adds_spec valid e hf ns
  constructor
  · intro h
    rw [h5.mp h, List.take_length] at h3 h4
    exact ⟨h4, h3⟩
  · intro ⟨hn, ha⟩
    apply Classical.byContradiction
    intro h
    obtain ⟨_, hk, hw⟩ := h6 h
    rcases hw with hw | hw
    · rcases List.mem_append.mp hw with hw | hw
      · exact (ha _ (List.getElem_mem hk)).2 hw
      · obtain ⟨i, hi, he⟩ := List.mem_iff_getElem.mp hw
        rw [List.getElem_take] at he
        have hi' : i < k := by
          rw [List.length_take] at hi
          omega
        exact (List.pairwise_iff_getElem.mp hn) i k (by omega) hk hi' he
    · rw [(ha _ (List.getElem_mem hk)).1] at hw
      cases hw

/-- Whether a text ends in another one. -/
def endsIn (s t : Name) : Bool := t.reverse.take s.length == s.reverse

theorem endsIn_of_suffix {s t : Name} (h : s <:+ t) : endsIn s t = true := by
  obtain ⟨u, rfl⟩ := h
  simp [endsIn]

theorem suffixes_apart : ∀ k ∈ [true, false], ∀ l ∈ [true, false], ∀ s ∈ suffixes k, ∀ t ∈ suffixes l,
    endsIn s t = true → s = t ∧ k = l := by
  decide +kernel

theorem suffixes_nodup (k : Bool) : (suffixes k).Nodup := by
  cases k <;> decide +kernel

theorem suffix_cases {p q s t : Name} (h : p ++ s = q ++ t) : s <:+ t ∨ t <:+ s := by
  rcases List.append_eq_append_iff.mp h with ⟨u, _, rfl⟩ | ⟨u, _, rfl⟩
  · exact Or.inr ⟨u, rfl⟩
  · exact Or.inl ⟨u, rfl⟩

theorem metric_inj {p q s t : Name} {k l : Bool} (hs : s ∈ suffixes k) (ht : t ∈ suffixes l)
    (h : p ++ s = q ++ t) : k = l ∧ p = q ∧ s = t := by
  have hk : k ∈ [true, false] := by cases k <;> simp
  have hl : l ∈ [true, false] := by cases l <;> simp
  have : s = t ∧ k = l := by
    rcases suffix_cases h with x | x
    · exact suffixes_apart k hk l hl s hs t ht (endsIn_of_suffix x)
    · have := suffixes_apart l hl k hk t ht s hs (endsIn_of_suffix x)
      exact ⟨this.1.symm, this.2.symm⟩
  obtain ⟨rfl, rfl⟩ := this
  exact ⟨rfl, List.append_cancel_right h, rfl⟩

theorem nodup_metrics (l : List (Bool × Name)) :
    (l.flatMap (fun x => (suffixes x.1).map (x.2 ++ ·))).Nodup ↔ l.Nodup := by
  induction l with
  | nil => simp
  | cons x rest ih =>
    rw [List.flatMap_cons, List.nodup_append, ih, List.nodup_cons]
    constructor
    · intro ⟨_, h2, h3⟩
      refine ⟨fun hx => ?_, h2⟩
      obtain ⟨s, hs⟩ : ∃ s, s ∈ suffixes x.1 := by
        cases x.1
        · exact ⟨_, List.mem_cons_self⟩
        · exact ⟨_, List.mem_cons_self⟩
      have hm : x.2 ++ s ∈ (suffixes x.1).map (x.2 ++ ·) := List.mem_map.mpr ⟨s, hs, rfl⟩
      exact h3 _ hm _ (List.mem_flatMap.mpr ⟨x, hx, hm⟩) rfl
    · intro ⟨h1, h2⟩
      refine ⟨?_, h2, ?_⟩
      · refine List.Pairwise.map _ ?_ (suffixes_nodup x.1)
        intro a b hab h
        exact hab (List.append_cancel_left h)
      · intro a ha b hb hab
        obtain ⟨s, hs, rfl⟩ := List.mem_map.mp ha
        obtain ⟨y, hy, hb⟩ := List.mem_flatMap.mp hb
        obtain ⟨t, ht, rfl⟩ := List.mem_map.mp hb
        obtain ⟨h3, h4, _⟩ := metric_inj hs ht hab
        have : x = y := Prod.ext h3 h4
        exact h1 (this ▸ hy)

theorem regs_paths (stack : List Name) (regs : List Reg) :
    (pathsAll stack (regs.map Reg.op)).map join =
      (regs.map (fun r => (r.task, join (stack ++ r.ns :: r.names)))).flatMap
        (fun x => (suffixes x.1).map (x.2 ++ ·)) := by
  induction regs with
  | nil => rfl
  | cons r rest ih =>
    simp only [List.map_cons, pathsAll, List.map_append, List.flatMap_cons, ih, reg_paths]

/-- C116. Metrics of tasks and connections can be registered beside each other, under any namespaces and names: as
long as no such channel is there yet, it works exactly if no two registrations of the same kind have the same joined
names, and it then adds the six or eight channels of each, in order. Metrics of a task and of a connection never
clash. -/
theorem C116_metrics (valid : Name → Bool) (e : Env) (hf : e.finalized = false) (regs : List Reg)
    (hv : ∀ r ∈ regs, ∀ s ∈ suffixes r.task,
      valid (List.intercalate ['.'] (e.stack ++ r.ns :: r.names) ++ s) = true ∧
      List.intercalate ['.'] (e.stack ++ r.ns :: r.names) ++ s ∉ e.names) :
    ((e.ops valid (regs.map Reg.op)).2 = none ↔
      (regs.map (fun r => (r.task, List.intercalate ['.'] (e.stack ++ r.ns :: r.names)))).Nodup) ∧
    ((e.ops valid (regs.map Reg.op)).2 = none →
      (e.ops valid (regs.map Reg.op)).1.names = e.names ++ regs.flatMap (fun r =>
        (suffixes r.task).map (List.intercalate ['.'] (e.stack ++ r.ns :: r.names) ++ ·))) := by
  have hp := regs_paths e.stack regs
  constructor
  · rw [ops_eq, adds_none_iff valid e hf, hp, nodup_metrics]
    constructor
    · exact fun h => h.1
    · refine fun h => ⟨h, ?_⟩
      intro n hn
      obtain ⟨x, hx, hn⟩ := List.mem_flatMap.mp hn
      obtain ⟨r, hr, rfl⟩ := List.mem_map.mp hx
      obtain ⟨s, hs, rfl⟩ := List.mem_map.mp hn
      exact hv r hr s hs
  · intro h
    rw [ops_eq] at h ⊢
    obtain ⟨k, h1, h2, _, _, h5, _⟩ := adds_spec valid e hf ((pathsAll e.stack (regs.map Reg.op)).map join)
    rw [h2, h5.mp h, List.take_length, hp, List.flatMap_map]
    rfl

/-- C116. Names with dots inside can clash: a channel `b.c` below `a` is the channel `c` below `a.b`. Whichever comes
second raises, whatever names it was created with. -/
theorem C116_dots_fails (valid : Name → Bool) (e : Env) (a b c : Name) (h : e.stack = [])
    (hn : (e.op valid (.pushed [a] [.channel (b ++ '.' :: c)])).2 = none) :
    ((e.op valid (.pushed [a] [.channel (b ++ '.' :: c)])).1.op valid (.pushed [a, b] [.channel c])).2 =
      some .assertion := by
  have hf : e.finalized = false := by
    cases hf : e.finalized with
    | false => rfl
    | true =>
      rw [op_eq] at hn
      simp [paths, pathsAll, adds, hf] at hn
  have j1 : join [a, b ++ '.' :: c] = join [a, b, c] := by
    simp [join, List.intercalate, List.intersperse]
  rw [op_eq, op_eq, adds_stack_same, h]
  rw [op_eq, h] at hn
  simp only [paths, pathsAll, List.nil_append, List.cons_append, List.append_nil, List.map_cons, List.map_nil] at hn ⊢
  rw [j1] at hn ⊢
  simp only [adds] at hn ⊢
  split at hn
  · simp at hn
  · rename_i hx
    simp [hx]

/-! ### The `poll` command -/

/-- The arguments, struct/__init__.py 55–63: a count (1 if none is given) and a delay. -/
def pollArgs {D : Type} (int : Name → Option Int) (float : Name → Option D) :
    List Name → Except PyErr (Int × Option D)
  | [] => .ok (1, none)
  | c :: rest =>
    match int c with
    | none => .error .value
    | some n =>
      match rest with
      | [] => .ok (n, none)
      | d :: _ =>
        match float d with
        | none => .error .value
        | some d => .ok (n, some d)

/-- The loop, 65–67: `works k` says whether the `k`-th poll of this struct returns. The result is the number of polls
so far. -/
def pollLoop (works : Nat → Bool) (polls : Nat) : Nat → Nat × Bool
  | 0 => (polls, true)
  | n + 1 => if works polls then pollLoop works (polls + 1) n else (polls + 1, false)

/-- The command. -/
def pollCommand {D : Type} (int : Name → Option Int) (float : Name → Option D) (works : Nat → Bool) (polls : Nat)
    (extra : List Name) : Nat × Option PyErr :=
  match pollArgs int float extra with
  | .error e => (polls, some e)
  | .ok (n, _) =>
    let r := pollLoop works polls n.toNat
    (r.1, if r.2 then none else some .runtime)

theorem pollLoop_works (works : Nat → Bool) (polls n : Nat) (h : ∀ k, k < n → works (polls + k) = true) :
    pollLoop works polls n = (polls + n, true) := by
  induction n generalizing polls with
  | zero => rfl
  | succ n ih =>
    have h0 : works polls = true := by simpa using h 0 (by omega)
    rw [pollLoop, if_pos h0, ih]
    · simp; omega
    · intro k hk
      have := h (k + 1) (by omega)
      rwa [show polls + 1 + k = polls + (k + 1) by omega]

theorem pollLoop_raises (works : Nat → Bool) (polls n k : Nat) (hk : k < n) (h : works (polls + k) = false)
    (hb : ∀ i, i < k → works (polls + i) = true) : pollLoop works polls n = (polls + k + 1, false) := by
  induction n generalizing polls k with
  | zero => omega
  | succ n ih =>
    cases k with
    | zero =>
      simp only [Nat.add_zero] at h
      simp [pollLoop, h]
    | succ k =>
      have h0 : works polls = true := by simpa using hb 0 (by omega)
      rw [pollLoop, if_pos h0, ih (polls + 1) k (by omega) (by rwa [show polls + 1 + k = polls + (k + 1) by omega])]
      · simp; omega
      · intro i hi
        have := hb (i + 1) (by omega)
        rwa [show polls + 1 + i = polls + (i + 1) by omega]

/-- C116. The `poll` command polls once without arguments and as often as its first argument says otherwise (never for
a negative one), whatever follows a readable delay; it ends early only at a poll that raises. If the count or the
delay cannot be read it raises before any poll. -/
theorem C116_poll {D : Type} (int : Name → Option Int) (float : Name → Option D) (works : Nat → Bool) (polls : Nat)
    (c d : Name) (n : Int) (rest : List Name) (hn : int c = some n) (hd : (float d).isSome = true) :
    (works polls = true → pollCommand int float works polls [] = (polls + 1, none)) ∧
    (∀ extra ∈ [[c], c :: d :: rest],
      ((∀ k : Nat, (k : Int) < n → works (polls + k) = true) →
        pollCommand int float works polls extra = (polls + n.toNat, none)) ∧
      (∀ k : Nat, (k : Int) < n → works (polls + k) = false → (∀ i, i < k → works (polls + i) = true) →
        pollCommand int float works polls extra = (polls + k + 1, some .runtime))) ∧
    (∀ x y, int x = none → pollCommand int float works polls (x :: y) = (polls, some .value)) ∧
    (∀ x, float x = none → pollCommand int float works polls (c :: x :: rest) = (polls, some .value)) := by
  obtain ⟨dv, hd⟩ := Option.isSome_iff_exists.mp hd
  refine ⟨?_, ?_, ?_, ?_⟩
  · intro h
    simp [pollCommand, pollArgs, pollLoop, h]
  · intro extra he
    have ha : ∃ o, pollArgs int float extra = .ok (n, o) := by
      simp only [List.mem_cons, List.not_mem_nil, or_false] at he
      rcases he with rfl | rfl
      · exact ⟨none, by simp [pollArgs, hn]⟩
      · exact ⟨some dv, by simp [pollArgs, hn, hd]⟩
    obtain ⟨o, ha⟩ := ha
    constructor
    · intro h
      have := pollLoop_works works polls n.toNat (fun k hk => h k (by omega))
      simp [pollCommand, ha, this]
    · intro k hk h hb
      have := pollLoop_raises works polls n.toNat k (by omega) h hb
      simp [pollCommand, ha, this]
  · intro x y h
    simp [pollCommand, pollArgs, h]
  · intro x h
    simp [pollCommand, pollArgs, hn, h]

/-! ### Sources -/

/-- What the primitive of an output is: `raw.value` of the C type takes any number (float), only whole ones
(integer), or the truth of one (boolean). -/
inductive Kind where
  | float | integer | boolean
  deriving DecidableEq

/-- What an output holds. -/
inductive Val (F : Type) where
  | num (x : F)
  | whole (n : Int)
  | truth (b : Bool)
  deriving DecidableEq

/-- A source, control/source.py 15–62: `amps` are the amplitudes (doubles). -/
structure Source (F : Type) where
  kind : Kind
  outputs : List (Val F)
  amps : List F
  length : Nat
  deriving DecidableEq

/-- Assigning a float to an output (`set_value`, primitives/base.py 156–166). -/
def assign {F : Type} (truth : F → Bool) : Kind → F → Except PyErr (Val F)
  | .float, x => .ok (.num x)
  | .integer, _ => .error .type
  | .boolean, x => .ok (.truth (truth x))

/-- A new output of a kind. -/
def Kind.new {F : Type} (zero : F) : Kind → Val F
  | .float => .num zero
  | .integer => .whole 0
  | .boolean => .truth false

/-- `init_env`, 33–54: `count` from the configuration and what `init_source` does to the list of outputs. -/
def Source.init {F : Type} (zero : F) (kind : Kind) (count : Int) (initSource : List (Val F) → List (Val F)) :
    Source F :=
  let outs := initSource (List.replicate count.toNat (kind.new zero))
  { kind, outputs := outs, amps := List.replicate count.toNat zero, length := outs.length }

/-- `poll`, 56–62, from the output `i` on, `n` more to go. A double times any number is a double. -/
def pollFrom {F : Type} (mul : F → F → F) (truth : F → Bool) (src : Nat → F) (s : Source F) (i : Nat) :
    Nat → Source F × Option PyErr
  | 0 => (s, none)
  | n + 1 =>
    match s.amps[i]? with
    | none => (s, some .index)
    | some a =>
      if i < s.outputs.length then
        match assign truth s.kind (mul a (src i)) with
        | .error e => (s, some e)
        | .ok v => pollFrom mul truth src { s with outputs := s.outputs.set i v } (i + 1) n
      else (s, some .index)

def Source.poll {F : Type} (mul : F → F → F) (truth : F → Bool) (src : Nat → F) (s : Source F) :
    Source F × Option PyErr := pollFrom mul truth src s 0 s.length

theorem pollFrom_spec {F : Type} (mul : F → F → F) (truth : F → Bool) (src : Nat → F) (s : Source F)
    (hk : s.kind ≠ .integer) (i n : Nat) (hi : i + n = s.outputs.length) (ha : i + n ≤ s.amps.length) :
    ∃ outs, pollFrom mul truth src s i n = ({ s with outputs := outs }, none) ∧
      outs.length = s.outputs.length ∧ (∀ j, j < i → outs[j]? = s.outputs[j]?) ∧
      (∀ j a, i ≤ j → j < i + n → s.amps[j]? = some a → ∃ v, outs[j]? = some v ∧
        assign truth s.kind (mul a (src j)) = .ok v) := by
  induction n generalizing s i with
  | zero => exact ⟨s.outputs, rfl, rfl, fun _ _ => rfl, fun j _ h1 h2 => by omega⟩
  | succ n ih =>
    have hl : i < s.amps.length := by omega
    have hv : ∃ v, assign truth s.kind (mul s.amps[i] (src i)) = .ok v := by
      cases h : s.kind with
      | float => exact ⟨_, rfl⟩
      | integer => exact absurd h hk
      | boolean => exact ⟨_, rfl⟩
    obtain ⟨v, hv⟩ := hv
    obtain ⟨outs, h1, h2, h3, h4⟩ := ih { s with outputs := s.outputs.set i v } hk (i + 1)
      (by simp; omega) (by simp; omega)
    refine ⟨outs, ?_, by simpa using h2, ?_, ?_⟩
    · rw [pollFrom, List.getElem?_eq_getElem hl]
      simp only
      rw [if_pos (by omega), hv]
      exact h1
    · intro j hj
      rw [h3 j (by omega)]
      simp only
      rw [List.getElem?_set_ne (by omega)]
    · intro j a hij hj hja
      by_cases hji : j = i
      · subst hji
        refine ⟨v, ?_, ?_⟩
        · rw [h3 j (by omega)]
          simp only
          rw [List.getElem?_set_self (by omega)]
        · rw [List.getElem?_eq_getElem hl] at hja
          cases hja
          exact hv
      · exact h4 j a (by omega) (by omega) hja

/-- C116. A source has as many outputs and amplitudes as configured (none for a negative count), and every poll sets
each output to the product of its own amplitude and the next value for its index; nothing else changes. -/
theorem C116_source {F : Type} (zero : F) (mul : F → F → F) (truth : F → Bool) (src : Nat → F) (count : Int)
    (amps : List F) (ha : amps.length = count.toNat) :
    ∃ outs : List (Val F), Source.poll mul truth src { Source.init zero .float count id with amps } =
        (⟨.float, outs, amps, count.toNat⟩, none) ∧
      outs.length = count.toNat ∧
      ∀ (i : Nat) (a : F), amps[i]? = some a → outs[i]? = some (.num (mul a (src i))) := by
  obtain ⟨outs, h1, h2, _, h4⟩ := pollFrom_spec mul truth src { Source.init zero .float count id with amps }
    (by simp [Source.init]) 0 count.toNat (by simp [Source.init]) (by simp [ha])
  refine ⟨outs, ?_, by simpa [Source.init] using h2, ?_⟩
  · have hl : ({ Source.init zero .float count id with amps } : Source F).length = count.toNat := by
      simp [Source.init]
    rw [Source.poll, hl, h1]
    simp [Source.init]
  · intro i a hi
    have : i < amps.length := (List.getElem?_eq_some_iff.mp hi).1
    obtain ⟨v, hv, he⟩ := h4 i a (by omega) (by omega) hi
    rw [hv]
    simp only [Source.init, assign] at he
    cases he
    rfl

/-- C116. A source of integers never works: as soon as it has an output, every poll raises at the first one, and no
output ever changes, whatever its amplitudes are and whatever values are provided. -/
theorem C116_integer_fails {F : Type} (zero : F) (mul : F → F → F) (truth : F → Bool) (src : Nat → F) (count : Int)
    (hc : 0 < count) (amps : List F) (ha : amps.length = count.toNat) :
    Source.poll mul truth src { Source.init zero .integer count id with amps } =
      ({ Source.init zero .integer count id with amps }, some .type) := by
  have hl : ({ Source.init zero .integer count id with amps } : Source F).length = (count.toNat - 1) + 1 := by
    simp only [Source.init, id_eq, List.length_replicate]
    omega
  have h0 : 0 < amps.length := by omega
  rw [Source.poll, hl, pollFrom, List.getElem?_eq_getElem h0]
  simp only [Source.init, id_eq, List.length_replicate, assign]
  rw [if_pos (by omega)]

/-- C116. Outputs that `init_source` adds get no amplitude: polling raises at the first of them, after the others have
been updated. -/
theorem C116_extra_fails {F : Type} (zero : F) (mul : F → F → F) (truth : F → Bool) (src : Nat → F) (count : Int)
    (extra : List (Val F)) (he : extra ≠ []) :
    (Source.poll mul truth src (Source.init zero .float count (· ++ extra))).2 = some .index := by
  have main (n : Nat) : ∀ (s : Source F) (i : Nat), s.kind = .float → i ≤ s.amps.length → s.amps.length < i + n →
      s.amps.length ≤ s.outputs.length → (pollFrom mul truth src s i n).2 = some .index := by
    induction n with
    | zero => intro s i _ h1 h2 _; omega
    | succ n ih =>
      intro s i hk h1 h2 h3
      by_cases hi : i < s.amps.length
      · rw [pollFrom, List.getElem?_eq_getElem hi]
        simp only [hk, assign]
        rw [if_pos (by omega)]
        exact ih _ _ rfl (by simp; omega) (by simp; omega) (by simpa using h3)
      · rw [pollFrom, List.getElem?_eq_none (by omega)]
  have : 0 < extra.length := List.length_pos_iff.mpr he
  apply main <;> simp [Source.init] <;> omega

/-! ### Building and the final poll -/

/-- A struct as an arbiter sees it. -/
structure Struct where
  /-- `final_poll`, info.py 63 -/
  final : Bool
  /-- whether `init_env` returns -/
  initOk : Bool
  /-- whether a poll at the end returns, if the struct was built -/
  pollOk : Bool
  /-- whether it returns if `init_env` raised -/
  bareOk : Bool
  deriving DecidableEq

/-- What happens, in order. -/
inductive Note where
  /-- peer process `i` was started -/
  | started (i : Nat)
  /-- `init_env` of struct `i` was called -/
  | init (i : Nat)
  /-- periodic tasks are running -/
  | tasks
  /-- a task or an application does something -/
  | work (k : Nat)
  /-- every task was stopped -/
  | stopped
  /-- struct `i` got its final poll -/
  | poll (i : Nat)
  /-- peer process `i` was ended -/
  | ended (i : Nat)
  deriving DecidableEq

/-- An exception: of building struct `i`, of what runs once the tasks do, or of a final poll. -/
inductive Exc where
  | build (i : Nat)
  | body
  | poll (i : Nat)
  deriving DecidableEq

/-- What is on the exit stack. -/
inductive Ctx where
  | peer (i : Nat)
  | final (i : Nat) (ok : Bool)
  | tasks
  deriving DecidableEq

/-- Building the structs from the `i`-th on, base.py 220–229 and info.py 74–83: the final poll is put on the stack
before `init_env` is called, and `gather` lets every struct be built although one raises. The stack has its last
entry first. Simplification: `build` awaits nothing, as that of `RuntimeStruct`. -/
def build (i : Nat) (stack : List Ctx) : List Struct → List Ctx × List Note × Option Exc
  | [] => (stack, [], none)
  | s :: rest =>
    let stack := if s.final then .final i (if s.initOk then s.pollOk else s.bareOk) :: stack else stack
    let r := build (i + 1) stack rest
    (r.1, .init i :: r.2.1, if s.initOk then r.2.2 else some (.build i))

/-- `AsyncExitStack.__aexit__` (contextlib): the last context first, each with the exception there is.
`_final_poll`, info.py 65–72; the task manager and peers pass on the exception (C104 has the others). -/
def unwind : List Ctx → Option Exc → List Note × Option Exc
  | [], e => ([], e)
  | .peer i :: rest, e => let r := unwind rest e; (.ended i :: r.1, r.2)
  | .tasks :: rest, e => let r := unwind rest e; (.stopped :: r.1, r.2)
  | .final i ok :: rest, e => let r := unwind rest (if ok then e else some (.poll i)); (.poll i :: r.1, r.2)

/-- `_main` within the exit stack, base.py 246–342 and 356–365: peers, structs, tasks and applications. `work` is what
tasks and applications do, `ok` whether that returns. Simplification: connections and servers are left out. -/
def life (peers : Nat) (structs : List Struct) (work : List Nat) (ok : Bool) : List Note × Option Exc :=
  let stack := ((List.range peers).map Ctx.peer).reverse
  let b := build 0 stack structs
  let notes := (List.range peers).map Note.started ++ b.2.1
  match b.2.2 with
  | some e => let u := unwind b.1 (some e); (notes ++ u.1, u.2)
  | none =>
    let u := unwind (.tasks :: b.1) (if ok then none else some .body)
    (notes ++ .tasks :: work.map .work ++ u.1, u.2)

/-- The structs with a final poll, and whether it returns, from index `i` on. -/
def finals (i : Nat) : List Struct → List (Nat × Bool)
  | [] => []
  | s :: rest =>
    if s.final then (i, if s.initOk then s.pollOk else s.bareOk) :: finals (i + 1) rest else finals (i + 1) rest

theorem build_spec (i : Nat) (stack : List Ctx) (ss : List Struct) :
    (build i stack ss).1 = ((finals i ss).map (fun x => Ctx.final x.1 x.2)).reverse ++ stack ∧
    (build i stack ss).2.1 = (List.range' i ss.length).map Note.init ∧
    (build i stack ss).2.2 = (((List.range' i ss.length).zip ss).find? (fun x => !x.2.initOk)).map (fun x => .build x.1) := by
  induction ss generalizing i stack with
  | nil => exact ⟨rfl, rfl, rfl⟩
  | cons s rest ih =>
    refine ⟨?_, ?_, ?_⟩
    · simp only [build, finals]
      rw [(ih (i + 1) _).1]
      by_cases hf : s.final = true <;> simp [hf]
    · simp only [build, (ih (i + 1) _).2.1, List.length_cons, List.range'_succ, List.map_cons]
    · simp only [build, (ih (i + 1) _).2.2, List.length_cons, List.range'_succ, List.zip_cons_cons, List.find?_cons]
      by_cases hi : s.initOk = true <;> simp [hi]

theorem unwind_peers (l : List Nat) (e : Option Exc) :
    unwind (l.map Ctx.peer) e = (l.map Note.ended, e) := by
  induction l with
  | nil => rfl
  | cons i rest ih => simp [unwind, ih]

theorem unwind_finals (l : List (Nat × Bool)) (rest : List Ctx) (e : Option Exc) :
    unwind (l.map (fun x => Ctx.final x.1 x.2) ++ rest) e =
      (l.map (fun x => Note.poll x.1) ++ (unwind rest (((l.reverse.find? (fun x => !x.2)).map (fun x => .poll x.1)).or e)).1,
        (unwind rest (((l.reverse.find? (fun x => !x.2)).map (fun x => .poll x.1)).or e)).2) := by
  induction l generalizing e with
  | nil => rfl
  | cons x l ih =>
    simp only [List.map_cons, List.cons_append, unwind, ih, List.reverse_cons, List.find?_append]
    cases l.reverse.find? (fun x => !x.2) with
    | some y => simp
    | none => cases hx : x.2 <;> simp [hx]

/-- The exception before the stack is left: that of the first struct whose `init_env` raises, or that of the body. -/
def first (ss : List Struct) (ok : Bool) : Option Exc :=
  match ((List.range' 0 ss.length).zip ss).find? (fun x => !x.2.initOk) with
  | some x => some (.build x.1)
  | none => if ok then none else some .body

theorem life_spec (peers : Nat) (ss : List Struct) (work : List Nat) (ok : Bool) :
    life peers ss work ok =
      ((List.range peers).map Note.started ++ (List.range' 0 ss.length).map Note.init ++
        (if ss.all (·.initOk) then .tasks :: work.map .work ++ [.stopped] else []) ++
        (finals 0 ss).reverse.map (fun x => Note.poll x.1) ++ (List.range peers).reverse.map Note.ended,
       (((finals 0 ss).find? (fun x => !x.2)).map (fun x => .poll x.1)).or (first ss ok)) := by
  have hall : (((List.range' 0 ss.length).zip ss).find? (fun x => !x.2.initOk)).isNone = ss.all (·.initOk) := by
    rw [Bool.eq_iff_iff]
    simp only [Option.isNone_iff_eq_none, List.find?_eq_none, List.all_eq_true]
    constructor
    · intro h s hs
      obtain ⟨i, hi, rfl⟩ := List.mem_iff_getElem.mp hs
      have := h (i, ss[i]) (List.mem_iff_getElem.mpr ⟨i, by simpa using hi, by simp⟩)
      simpa using this
    · intro h x hx
      simpa using h x.2 (List.of_mem_zip hx).2
  obtain ⟨b1, b2, b3⟩ := build_spec 0 ((List.range peers).map Ctx.peer).reverse ss
  simp only [life, b1, b2, b3, first]
  rw [← List.map_reverse, ← List.map_reverse]
  cases hf : ((List.range' 0 ss.length).zip ss).find? (fun x => !x.2.initOk) with
  | some x =>
    rw [hf] at hall
    simp only [Option.isNone_some] at hall
    simp only [Option.map_some, unwind_finals, unwind_peers, List.reverse_reverse, ← hall]
    simp
  | none =>
    rw [hf] at hall
    simp only [Option.isNone_none] at hall
    simp only [Option.map_none, unwind, unwind_finals, unwind_peers, List.reverse_reverse, ← hall]
    simp

theorem mem_finals {i : Nat} {ss : List Struct} {x : Nat × Bool} (h : x ∈ finals i ss) :
    i ≤ x.1 ∧ ∃ s, ss[x.1 - i]? = some s ∧ s.final = true ∧ x.2 = if s.initOk then s.pollOk else s.bareOk := by
  induction ss generalizing i with
  | nil => cases h
  | cons s rest ih =>
    simp only [finals] at h
    by_cases hf : s.final = true
    · rw [if_pos hf, List.mem_cons] at h
      rcases h with rfl | h
      · exact ⟨Nat.le_refl _, s, by simp, hf, rfl⟩
      · obtain ⟨h1, t, h2, h3⟩ := ih h
        refine ⟨by omega, t, ?_, h3⟩
        rw [show x.1 - i = (x.1 - (i + 1)) + 1 by omega, List.getElem?_cons_succ]
        exact h2
    · rw [if_neg hf] at h
      obtain ⟨h1, t, h2, h3⟩ := ih h
      refine ⟨by omega, t, ?_, h3⟩
      rw [show x.1 - i = (x.1 - (i + 1)) + 1 by omega, List.getElem?_cons_succ]
      exact h2

theorem finals_mem {i j : Nat} {ss : List Struct} {s : Struct} (h : ss[j]? = some s) (hf : s.final = true) :
    (i + j, if s.initOk then s.pollOk else s.bareOk) ∈ finals i ss := by
  induction ss generalizing i j with
  | nil => simp at h
  | cons t rest ih =>
    cases j with
    | zero =>
      rw [List.getElem?_cons_zero] at h
      cases h
      simp [finals, hf]
    | succ j =>
      rw [List.getElem?_cons_succ] at h
      have := ih (i := i + 1) h
      rw [show i + 1 + j = i + (j + 1) by omega] at this
      simp only [finals]
      split
      · exact List.mem_cons_of_mem _ this
      · exact this

theorem finals_sorted (i : Nat) (ss : List Struct) : (finals i ss).Pairwise (fun x y => x.1 < y.1) := by
  induction ss generalizing i with
  | nil => exact List.Pairwise.nil
  | cons s rest ih =>
    simp only [finals]
    split
    · refine List.Pairwise.cons ?_ (ih (i + 1))
      intro x hx
      have := (mem_finals hx).1
      simp only
      omega
    · exact ih (i + 1)

/-- C116. However an application ends (a struct cannot be built, tasks or applications raise, or all is well), what
is observed is: everything else, then the final polls, then the ends of the peer processes. Every struct that asks for
it gets exactly one final poll, no other struct does, the structs that come last first; all tasks were stopped by
then, every peer is still running, and one poll that raises does not keep the others from being polled. -/
theorem C116_final (peers : Nat) (ss : List Struct) (work : List Nat) (ok : Bool) :
    ∃ (before : List Note) (polls : List Nat), (life peers ss work ok).1 =
        before ++ polls.map Note.poll ++ (List.range peers).reverse.map Note.ended ∧
      (∀ i, i ∈ polls ↔ ∃ s : Struct, ss[i]? = some s ∧ s.final = true) ∧
      polls.Pairwise (· > ·) ∧
      (∀ i, Note.poll i ∉ before ∧ Note.ended i ∉ before) ∧
      (∀ i, i < ss.length → Note.init i ∈ before) ∧
      (Note.tasks ∈ before → before.getLast? = some .stopped) ∧
      ((∀ s ∈ ss, s.initOk = true) → Note.tasks ∈ before) := by
  rw [life_spec]
  refine ⟨(List.range peers).map Note.started ++ (List.range' 0 ss.length).map Note.init ++
    (if ss.all (·.initOk) then .tasks :: work.map .work ++ [.stopped] else []),
    ((finals 0 ss).map (·.1)).reverse, ?_, ?_, ?_, ?_, ?_, ?_, ?_⟩
  · simp [List.map_reverse]
  · intro i
    rw [List.mem_reverse, List.mem_map]
    constructor
    · rintro ⟨x, hx, rfl⟩
      obtain ⟨_, s, h1, h2, _⟩ := mem_finals hx
      exact ⟨s, by simpa using h1, h2⟩
    · rintro ⟨s, h1, h2⟩
      have := finals_mem (i := 0) h1 h2
      exact ⟨_, this, by simp⟩
  · rw [List.pairwise_reverse, List.pairwise_map]
    exact finals_sorted 0 ss
  · intro i
    constructor <;> (split <;> simp)
  · intro i hi
    simp [hi]
  · intro h
    split at h
    · rename_i hx
      rw [if_pos hx, ← List.append_assoc, List.getLast?_append]
      rfl
    · simp at h
  · intro h
    rw [if_pos (List.all_eq_true.mpr h)]
    simp

/-- C116. The exception that comes out of it is the one that stopped the application (the first struct that could not
be built, or what was raised later), if no final poll raises. -/
theorem C116_exception_partial (peers : Nat) (ss : List Struct) (work : List Nat) (ok : Bool)
    (h : ∀ s ∈ ss, s.final = true → s.pollOk = true ∧ s.bareOk = true) :
    ((∀ s ∈ ss, s.initOk = true) → (life peers ss work ok).2 = if ok then none else some .body) ∧
    (∀ i s, ss[i]? = some s → s.initOk = false → (∀ j t, j < i → ss[j]? = some t → t.initOk = true) →
      (life peers ss work ok).2 = some (.build i)) := by
  have hn : (finals 0 ss).find? (fun x => !x.2) = none := by
    rw [List.find?_eq_none]
    intro x hx
    obtain ⟨_, s, h1, h2, h3⟩ := mem_finals hx
    have := h s (List.mem_of_getElem? h1) h2
    rw [h3, this.1, this.2]
    simp
  rw [life_spec]
  simp only [hn, Option.map_none, Option.none_or]
  constructor
  · intro ha
    have : ((List.range' 0 ss.length).zip ss).find? (fun x => !x.2.initOk) = none := by
      rw [List.find?_eq_none]
      intro x hx
      simpa using ha x.2 (List.of_mem_zip hx).2
    simp only [first, this]
  · intro i s hi hs hb
    have hl : i < ss.length := (List.getElem?_eq_some_iff.mp hi).1
    have : ((List.range' 0 ss.length).zip ss).find? (fun x => !x.2.initOk) = some (i, s) := by
      rw [List.find?_eq_some_iff_getElem]
      refine ⟨by simp [hs], i, by simpa using hl, ?_, ?_⟩
      · have := (List.getElem?_eq_some_iff.mp hi).2
        simp [this]
      · intro j hj
        have hjl : j < ss.length := by omega
        have := hb j ss[j] hj (List.getElem?_eq_getElem hjl)
        simp [this]
    simp only [first, this]

/-- C116. A final poll that raises hides whatever else was raised: what comes out is always the exception of the first
struct whose final poll raises, never the reason why the application stopped. -/
theorem C116_masked_fails (peers : Nat) (ss : List Struct) (work : List Nat) (ok : Bool) (i : Nat) (s : Struct)
    (hi : ss[i]? = some s) (hf : s.final = true) (hr : (if s.initOk then s.pollOk else s.bareOk) = false)
    (hb : ∀ j t, j < i → ss[j]? = some t → t.final = true → (if t.initOk then t.pollOk else t.bareOk) = true) :
    (life peers ss work ok).2 = some (.poll i) := by
  rw [life_spec]
  have hm := finals_mem (i := 0) hi hf
  rw [hr] at hm
  cases hx : (finals 0 ss).find? (fun x => !x.2) with
  | none =>
    have := List.find?_eq_none.mp hx _ hm
    simp at this
  | some x =>
    have hxm := List.mem_of_find?_eq_some hx
    have hxf := List.find?_some hx
    obtain ⟨_, t, h1, h2, h3⟩ := mem_finals hxm
    rw [Nat.sub_zero] at h1
    have hle : x.1 = i := by
      rcases Nat.lt_trichotomy x.1 i with h | h | h
      · have := hb _ t h h1 h2
        rw [← h3] at this
        rw [this] at hxf
        cases hxf
      · exact h
      · exfalso
        obtain ⟨_, a, b, hab, hno⟩ := List.find?_eq_some_iff_append.mp hx
        rw [hab] at hm
        rcases List.mem_append.mp hm with hm | hm
        · have := hno _ hm
          simp at this
        · have hs := finals_sorted 0 ss
          rw [hab, List.pairwise_append] at hs
          rcases List.mem_cons.mp hm with hm | hm
          · have : x.1 = 0 + i := by rw [← hm]
            omega
          · have := (List.pairwise_cons.mp hs.2.1).1 _ hm
            simp only at this
            omega
    simp [hle]

/-- C116. In particular a struct with a final poll whose `init_env` raises is polled although it was never set up; if
its poll needs what `init_env` makes, that exception comes out instead of the reason (first struct, or those before
it are fine). -/
theorem C116_unbuilt_fails (peers : Nat) (s : Struct) (rest : List Struct) (work : List Nat) (ok : Bool)
    (hf : s.final = true) (hi : s.initOk = false) :
    Note.poll 0 ∈ (life peers (s :: rest) work ok).1 ∧ Note.tasks ∉ (life peers (s :: rest) work ok).1 ∧
    (s.bareOk = false → (life peers (s :: rest) work ok).2 = some (.poll 0)) := by
  refine ⟨?_, ?_, ?_⟩
  · rw [life_spec]
    have := finals_mem (i := 0) (j := 0) (ss := s :: rest) rfl hf
    simp only [List.mem_append, List.mem_map, List.mem_reverse]
    exact Or.inl (Or.inr ⟨_, this, rfl⟩)
  · rw [life_spec]
    simp [hi]
  · intro hb
    exact C116_masked_fails peers (s :: rest) work ok 0 s rfl hf (by simp [hi, hb]) (fun j _ h => by omega)

/-! ### Cases -/

/-- C116. Cases: an environment set up under two levels of names, the metrics of a connection, two structs of which
the first cannot be built, and a source with two outputs. -/
theorem C116_cases :
    (Env.ops (fun _ => true) ⟨[], [], false⟩
      [.channel "x".toList, .pushed ["a".toList] [.pushed ["b".toList, "c".toList] [.channel "y".toList],
        .channel "z".toList], .channel "x".toList, .channel "w".toList]) =
      (⟨[], ["x".toList, "a.b.c.y".toList, "a.z".toList], false⟩, some .assertion) ∧
    (Env.ops (fun _ => true) ⟨[], [], false⟩ [connMetrics "metrics".toList ["json".toList]]).1.names =
      ["metrics.json.tx.messages".toList, "metrics.json.tx.messages_rate".toList, "metrics.json.tx.bytes".toList,
        "metrics.json.tx.kbps".toList, "metrics.json.rx.messages".toList, "metrics.json.rx.messages_rate".toList,
        "metrics.json.rx.bytes".toList, "metrics.json.rx.kbps".toList] ∧
    life 1 [⟨true, false, true, false⟩, ⟨true, true, true, true⟩] [7] true =
      ([.started 0, .init 0, .init 1, .poll 1, .poll 0, .ended 0], some (.poll 0)) ∧
    life 1 [⟨true, true, true, true⟩, ⟨false, true, true, true⟩] [7] false =
      ([.started 0, .init 0, .init 1, .tasks, .work 7, .stopped, .poll 0, .ended 0], some .body) ∧
    Source.poll (· * ·) (· != 0) (fun i => (i : Int) + 5) ⟨.float, [.num 0, .num 0], [2, 3], 2⟩ =
      (⟨.float, [.num 10, .num 18], [2, 3], 2⟩, none) := by
  refine ⟨by decide +kernel, by decide +kernel, by decide +kernel, by decide +kernel, by decide +kernel⟩

end Verif.Structs
