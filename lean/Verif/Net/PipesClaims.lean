import Verif.Net.Pipes

/-! C75: what reaches a host through the pipes of a process. -/
namespace Verif.Net.Pipes

open Verif.Wire Verif.Message Verif.Event

variable {J : Type}

theorem new_round (k : IntKind) (o : ByteOrder) : (Proc.new k o).round = .stop := by
  have := size_pos k
  unfold Proc.round
  simp only [Proc.new, if_true]
  have : pop k.size [] = none := by unfold pop; rw [if_neg (by simp; omega)]
  rw [this]

theorem prefix_flatten {a b c : List Bytes} (h : a ++ b = c) : a.flatten <+: c.flatten := by
  rw [← h, List.flatten_append]
  exact List.prefix_append _ _

/-- C75. A process writes messages to its standard output. However the bytes arrive, whatever else
happens, the messages handled are always the first ones written, in order, each once; if the host is
still servicing the queue and has emptied it when all bytes have arrived, they are all of them. -/
theorem C75_stdout (loads : Bytes → Except PyErr J) (k : IntKind) (hk : k.signed = false) (o : ByteOrder) (env : Option Names)
    (sent : List Bytes) (hs : ∀ m ∈ sent, (m.length : Int) ≤ Spec.hi k) (hl : ∀ m ∈ sent, ∃ j, loads m = .ok j)
    (stream : Bytes) (he : (Proc.new k o).encodeAll sent = .ok stream) (ops : List Op)
    (hops : ∀ x ∈ ops, x.isAssign = false) (hc : (chunks 1 ops).flatten <+: stream) :
    let w := run loads (W.ready k o env) ops
    (∃ n, w.msgs.map .ok = (sent.take n).map loads) ∧
    (w.polling = true → w.out = some [] → (chunks 1 ops).flatten = stream → w.msgs.map .ok = sent.map loads) := by
  intro w
  obtain ⟨tk, ⟨q, hq, htk⟩, -, h3, -⟩ := out_run loads (W.ready k o env) rfl rfl ops hops
  have hpre : tk.flatten <+: stream := (prefix_flatten htk).trans (by rw [full_flatten]; exact hc)
  obtain ⟨n, b, h1, -⟩ := C30_received k hk o sent hs stream he tk hpre
  have hraw : ((W.ready k o env : W J).proc.deliverAll (all tk)).2.1 = sent.take n := by
    have := congrArg Prod.fst h1
    exact this
  have hok : ∀ l : List Bytes, (∀ m ∈ l, m ∈ sent) → (okPrefix (l.map loads)).1.map .ok = l.map loads := by
    intro l hl'
    apply okPrefix_all
    apply okPrefix_ok
    intro x hx
    obtain ⟨m, hm, rfl⟩ := List.mem_map.mp hx
    exact hl m (hl' m hm)
  have hmsgs : w.msgs = (okPrefix (((W.ready k o env : W J).proc.deliverAll (all tk)).2.1.map loads)).1 := h3
  refine ⟨⟨n, ?_⟩, ?_⟩
  · rw [hmsgs, hraw]
    exact hok _ (fun m hm => List.mem_of_mem_take hm)
  · intro _ hout hall
    have hq' : q = [] := by
      have : (some q : Option (List Bytes)) = some [] := hq.symm.trans hout
      exact Option.some.inj this
    have htk' : tk.flatten = stream := by
      rw [hq'] at htk
      simp only [full, List.filter_nil, List.append_nil] at htk
      rw [htk, ← hall]
      exact full_flatten _
    obtain ⟨s', e1, e2⟩ := C30_all_received k hk o sent hs
    rw [he] at e1
    cases e1
    have := congrArg Prod.fst (e2 tk htk')
    have hraw' : ((W.ready k o env : W J).proc.deliverAll (all tk)).2.1 = sent := this
    rw [hmsgs, hraw']
    exact hok _ (fun m hm => hm)

/-- Cutting a stream of events outside values: any part of it parses without error. -/
theorem parse_part (env : Names) (evs : List Ev) (hg : ∀ e ∈ evs, e.Good env) (s : Bytes)
    (hs : streamOf env.hdr evs = .ok s) (cs : List Bytes) (hc : cs.flatten <+: s)
    (hcut : ∀ n < cs.length, ¬ ∃ k < evs.length, offset env.hdr evs k + env.hdr.size ≤ (cs.take n).flatten.length
      ∧ (cs.take n).flatten.length < offset env.hdr evs (k + 1)) :
    ∃ k, (Rx.new.parseAll env (all cs)).2 = ((evs.take k).map (Ev.seen env), none) := by
  rw [all, parseAll_eq env cs Rx.new rfl (new_stop env)]
  · obtain ⟨k, -, k2, k3, -, -, -⟩ := drain_prefix env evs hg ⟨cs.flatten, false, 0, 0⟩ rfl "" s hs hc
    refine ⟨k, ?_⟩
    simp only [Rx.parse, Rx.new, List.nil_append]
    rw [if_neg (by simp), k2, k3]
  · intro n h1 h2
    have hpre : (cs.take n).flatten <+: s := by
      refine List.IsPrefix.trans ⟨(cs.drop n).flatten, ?_⟩ hc
      rw [← List.flatten_append, List.take_append_drop]
    obtain ⟨k, k1, -, k3, k4, k5, k6⟩ := drain_prefix env evs hg ⟨(cs.take n).flatten, false, 0, 0⟩ rfl "" s hs hpre
    simp only [Rx.parse, Rx.new, List.nil_append]
    rw [if_neg (by simp)]
    refine ⟨?_, k3⟩
    rw [k6]
    dsimp only at k4 k5 ⊢
    refine decide_eq_false (fun hle => ?_)
    have hk : k < evs.length := by
      by_cases hk : k < evs.length
      · exact hk
      · exfalso
        have : k = evs.length := by omega
        subst this
        have hl := stream_length env evs hg s hs
        have := hpre.length_le
        have := hdr_size_pos env.hdr
        omega
    exact hcut n h2 ⟨k, hk, hle, k5 hk⟩

/-- No chunk of a stream of events ends between the end of an event's header and the end of its value. -/
def CutWell (H : Hdr) (evs : List Ev) (cs : List Bytes) : Prop :=
  ∀ n < cs.length, ¬ ∃ k < evs.length, offset H evs k + H.size ≤ (cs.take n).flatten.length
      ∧ (cs.take n).flatten.length < offset H evs (k + 1)

theorem cutWell_full (H : Hdr) (evs : List Ev) (cs : List Bytes) (h : CutWell H evs cs) : CutWell H evs (full cs) := by
  intro n hn hex
  have key : ∀ (cs : List Bytes) (n : Nat), n < (full cs).length →
      ∃ m < cs.length, (cs.take m).flatten = ((full cs).take n).flatten := by
    intro cs
    induction cs with
    | nil => intro n hn; simp [full] at hn
    | cons c cs ih =>
      intro n hn
      by_cases hc : c = []
      · subst hc
        rw [full_cons, if_pos rfl] at hn ⊢
        obtain ⟨m, hm, e⟩ := ih n hn
        exact ⟨m + 1, by simp; omega, by simpa using e⟩
      · rw [full_cons, if_neg hc] at hn ⊢
        cases n with
        | zero => exact ⟨0, by simp, by simp⟩
        | succ n =>
          obtain ⟨m, hm, e⟩ := ih n (by simp at hn; omega)
          exact ⟨m + 1, by simp; omega, by simp [e]⟩
  obtain ⟨m, hm, e⟩ := key cs n hn
  rw [← e] at hex
  exact h m hm hex

theorem cutWell_left (H : Hdr) (evs : List Ev) (a b : List Bytes) (h : CutWell H evs (a ++ b)) : CutWell H evs a := by
  intro n hn hex
  have : ((a ++ b).take n) = a.take n := by
    rw [List.take_append_of_le_length (by omega)]
  have h1 := h n (by simp; omega)
  rw [this] at h1
  exact h1 hex

/-- C75 (partial: chunks must not end inside a value). Once the peer's environment is known: the events
ingested are always the first ones written to standard error, in order, and all of them once everything
has arrived and the queue is empty. -/
theorem C75_stderr_partial (loads : Bytes → Except PyErr J) (w0 : W J) (env : Names) (h0 : w0.err = some [])
    (hk : w0.env = some env) (hrx : w0.rx = Rx.new) (evs : List Ev) (hg : ∀ e ∈ evs, e.Good env) (s : Bytes)
    (hs : streamOf env.hdr evs = .ok s) (ops : List Op) (hops : ∀ x ∈ ops, x.isAssign = false)
    (hc : (chunks 2 ops).flatten <+: s) (hcut : CutWell env.hdr evs (chunks 2 ops)) :
    let w := run loads w0 ops
    (∃ n, w.evs = w0.evs ++ (evs.take n).map (Ev.seen env)) ∧
    (w.err = some [] → (chunks 2 ops).flatten = s → w.evs = w0.evs ++ evs.map (Ev.seen env)) := by
  intro w
  obtain ⟨te, ⟨q, hq, hte⟩, -, -, h3, -⟩ := err_run loads env w0 h0 hk ops hops
  rw [hrx] at h3
  have hfull := cutWell_full _ _ _ hcut
  rw [← hte] at hfull
  have hpre : te.flatten <+: s := (prefix_flatten hte).trans (by rw [full_flatten]; exact hc)
  obtain ⟨n, hn⟩ := parse_part env evs hg s hs te hpre (cutWell_left _ _ _ _ hfull)
  refine ⟨⟨n, ?_⟩, ?_⟩
  · show (run loads w0 ops).evs = _
    rw [h3, hn]
  · intro herr hall
    have hq' : q = [] := Option.some.inj (hq.symm.trans herr)
    rw [hq'] at hte hfull
    simp only [full, List.filter_nil, List.append_nil] at hte hfull
    have hte' : te.flatten = s := by rw [hte, ← hall]; exact full_flatten _
    have := C33_cut_partial env evs hg s hs te hte' hfull
    show (run loads w0 ops).evs = _
    rw [h3]
    simp only [all]
    rw [this]

theorem polling_step (loads : Bytes → Except PyErr J) (w : W J) (o : Op) (ho : ∀ _ : o = .cancel, False)
    (hp : w.polling = true) (hn : (step loads w o).1.polling = false) :
    (o = .takeOut ∧ ∃ d q, w.out = some (d :: q) ∧ (handleOut loads { w with out := some q } d).polling = false) ∨
    (o = .takeErr ∧ ∃ d q, w.err = some (d :: q) ∧ (handleErr { w with err := some q } d).polling = false) := by
  cases o with
  | data fd b =>
    simp only [step] at hn
    split at hn
    · rw [hp] at hn; cases hn
    · split at hn
      · split at hn <;> (rw [hp] at hn; cases hn)
      · rw [hp] at hn; cases hn
  | lost fd =>
    simp only [step] at hn
    split at hn
    · rw [hp] at hn; cases hn
    · split at hn <;> (rw [hp] at hn; cases hn)
  | exited => simp only [step] at hn; rw [hp] at hn; cases hn
  | assign a b => simp only [step] at hn; rw [hp] at hn; cases hn
  | meet e =>
    simp only [step] at hn
    split at hn <;> (rw [hp] at hn; cases hn)
  | cancel => exact absurd rfl (fun h => ho h)
  | takeOut =>
    left
    simp only [step, hp, if_true] at hn
    split at hn
    · rename_i d q he; exact ⟨rfl, d, q, he, by rw [hp]; exact hn⟩
    · rw [hp] at hn; cases hn
  | takeErr =>
    right
    simp only [step, hp, if_true] at hn
    split at hn
    · rename_i d q he; exact ⟨rfl, d, q, he, by rw [hp]; exact hn⟩
    · rw [hp] at hn; cases hn

/-- C75 (partial, as above). With well-formed traffic the host never stops servicing the queues before it is
told to. -/
theorem C75_servicing_partial (loads : Bytes → Except PyErr J) (k : IntKind) (hk : k.signed = false) (o : ByteOrder) (env : Names)
    (sent : List Bytes) (hsn : ∀ m ∈ sent, (m.length : Int) ≤ Spec.hi k) (hl : ∀ m ∈ sent, ∃ j, loads m = .ok j)
    (stream : Bytes) (he : (Proc.new k o).encodeAll sent = .ok stream)
    (evs : List Ev) (hg : ∀ e ∈ evs, e.Good env) (s : Bytes) (hs : streamOf env.hdr evs = .ok s)
    (ops : List Op) (hops : ∀ x ∈ ops, x.isAssign = false ∧ x ≠ .cancel)
    (hc1 : (chunks 1 ops).flatten <+: stream) (hc2 : (chunks 2 ops).flatten <+: s) (hcut : CutWell env.hdr evs (chunks 2 ops)) :
    (run loads (W.ready k o (some env)) ops).polling = true := by
  induction ops using List.reverseRecOn with
  | nil => rfl
  | append_singleton ops x ih =>
    have hops' : ∀ y ∈ ops, y.isAssign = false ∧ y ≠ .cancel := fun y hy => hops y (List.mem_append_left _ hy)
    have hx := hops x (by simp)
    rw [chunks_snoc] at hc1 hc2 hcut
    have hc1' : (chunks 1 ops).flatten <+: stream := (prefix_flatten (a := chunks 1 ops) rfl).trans hc1
    have hc2' : (chunks 2 ops).flatten <+: s := (prefix_flatten (a := chunks 2 ops) rfl).trans hc2
    have hcut' := cutWell_left _ _ _ _ hcut
    have hp := ih hops' hc1' hc2' hcut'
    have hsnoc : run loads (W.ready k o (some env)) (ops ++ [x]) = (step loads (run loads (W.ready k o (some env)) ops) x).1 := by
      simp [run, List.foldl_append]
    cases hnp : (run loads (W.ready k o (some env) : W J) (ops ++ [x])).polling with
    | true => rfl
    | false =>
      exfalso
      have hall : ∀ y ∈ ops ++ [x], y.isAssign = false := fun y hy => (hops y hy).1
      obtain ⟨tk, ⟨q, hq, htk⟩, -, -, l1⟩ := out_run loads (W.ready k o (some env)) rfl rfl ops (fun y hy => (hops' y hy).1)
      obtain ⟨te, ⟨q', hq', hte⟩, hkn, -, -, l2⟩ := err_run loads env (W.ready k o (some env)) rfl rfl ops (fun y hy => (hops' y hy).1)
      rw [hsnoc] at hnp
      rcases polling_step loads _ x (fun h => hx.2 h) hp hnp with ⟨-, d, r, hout, hh⟩ | ⟨-, d, r, herr, hh⟩
      · obtain ⟨m1, m2⟩ := l1 hp
        rw [hq] at hout
        cases hout
        unfold handleOut at hh
        by_cases hd : d = []
        · rw [if_pos hd] at hh; rw [hp] at hh; cases hh
        · rw [if_neg hd] at hh
          simp only [Proc.messages] at hh
          rw [m1] at hh
          obtain ⟨s1, s2⟩ := deliverAll_snoc (W.ready k o (some env) : W J).proc tk d
          have e := proc_err ((W.ready k o (some env) : W J).proc.deliverAll (all tk)).1 d
          generalize hgen : ((W.ready k o (some env) : W J).proc.deliverAll (all tk)).1.deliver d none = z at *
          obtain ⟨z1, z2, z3⟩ := z
          dsimp only at e hh s1 s2
          subst e
          simp only [Option.isNone_none, Bool.and_true] at hh
          have hpre : (tk ++ [d]).flatten <+: stream := by
            have : (tk ++ [d]) ++ full r = full (chunks 1 ops) := by
              rw [← htk, full_cons, if_neg hd]; simp
            exact (prefix_flatten this).trans (by rw [full_flatten]; exact hc1')
          obtain ⟨n, b, h1, -⟩ := C30_received k hk o sent hsn stream he (tk ++ [d]) hpre
          have hraw : ((W.ready k o (some env) : W J).proc.deliverAll (all (tk ++ [d]))).2.1 = sent.take n :=
            congrArg Prod.fst h1
          rw [hraw] at s2
          rw [okPrefix_ok] at hh
          · cases hh
          · intro y hy
            obtain ⟨m, hm, rfl⟩ := List.mem_map.mp hy
            refine hl m (List.mem_of_mem_take (i := n) ?_)
            rw [s2]
            exact List.mem_append_right _ hm
      · obtain ⟨m1, m2⟩ := l2 hp
        rw [hq'] at herr
        cases herr
        unfold handleErr at hh
        by_cases hd : d = []
        · rw [if_pos hd] at hh; rw [hp] at hh; cases hh
        · rw [if_neg hd] at hh
          simp only [hkn] at hh
          rw [m1] at hh
          obtain ⟨-, -, s3⟩ := parseAll_snoc env (W.ready k o (some env) : W J).rx te d m2
          rw [← s3] at hh
          have heq : (te ++ [d]) ++ full r = full (chunks 2 ops) := by
            rw [← hte, full_cons, if_neg hd]; simp
          have hpre : (te ++ [d]).flatten <+: s := (prefix_flatten heq).trans (by rw [full_flatten]; exact hc2')
          have hfull := cutWell_full _ _ _ hcut'
          rw [← heq] at hfull
          obtain ⟨n, hn⟩ := parse_part env evs hg s hs (te ++ [d]) hpre (cutWell_left _ _ _ _ hfull)
          have h22 := congrArg Prod.snd hn
          have h22' : ((W.ready k o (some env) : W J).rx.parseAll env (all (te ++ [d]))).2.2 = none := h22
          rw [h22'] at hh
          cases hh

theorem put_bytes (q : List Bytes) (b : Bytes) : ((put (some q) b).getD []).flatten.length = q.flatten.length + b.length := by
  simp [put]

theorem err_bytes_step (loads : Bytes → Except PyErr J) (w : W J) (he : w.err.isSome) (o : Op) (ho : o.isAssign = false) :
    (step loads w o).1.err.isSome ∧ (step loads w o).1.errCount.2 + (leftover (step loads w o).1).2 =
      w.errCount.2 + (leftover w).2 + (chunks 2 [o]).flatten.length := by
  obtain ⟨q, hq⟩ := Option.isSome_iff_exists.mp he
  simp only [leftover]
  have nil : ∀ w' : W J, w'.err = w.err → w'.errCount = w.errCount → chunks 2 [o] = [] →
      w'.err.isSome ∧ w'.errCount.2 + ((w'.err.getD []).flatten.length) =
      w.errCount.2 + ((w.err.getD []).flatten.length) + (chunks 2 [o]).flatten.length := by
    intro w' h1 h2 h3
    rw [h1, h2, h3]
    exact ⟨he, by simp⟩
  cases o with
  | data fd b =>
    simp only [step, hq, Option.isSome_some, if_true]
    by_cases hfd : fd = 2
    · subst hfd
      rw [if_neg (by simp), if_pos rfl]
      refine ⟨rfl, ?_⟩
      have := put_bytes q b
      simp only [this, Option.getD_some, chunks, List.filterMap_cons, if_true, List.filterMap_nil, List.flatten_cons,
        List.flatten_nil, List.append_nil]
      omega
    · rw [if_neg hfd]
      have hc : chunks 2 [Op.data fd b] = [] := by simp [chunks, hfd]
      have := nil (step loads w (.data fd b)).1 (by simp only [step, hq, Option.isSome_some, if_true, if_neg hfd]; split <;> simp [hq])
        (by simp only [step, hq, Option.isSome_some, if_true, if_neg hfd]; split <;> simp) hc
      simpa only [step, hq, Option.isSome_some, if_true, if_neg hfd] using this
  | lost fd =>
    simp only [step]
    by_cases h1 : fd = 1
    · rw [if_pos h1]; exact nil _ rfl rfl rfl
    · rw [if_neg h1]
      by_cases h2 : fd = 2
      · rw [if_pos h2]
        dsimp only
        rw [hq]
        refine ⟨rfl, ?_⟩
        rw [put_bytes]
        simp [chunks]
      · rw [if_neg h2]; exact nil _ rfl rfl rfl
  | exited =>
    simp only [step]
    rw [hq]
    refine ⟨rfl, ?_⟩
    rw [put_bytes]
    simp [chunks]
  | assign a b => cases ho
  | meet e => simp only [step]; split <;> exact nil _ rfl rfl rfl
  | cancel => exact nil _ rfl rfl rfl
  | takeOut =>
    simp only [step]
    split
    · split
      · rename_i d r _
        obtain ⟨a1, a2, -, -, -, -⟩ := handleOut_err loads { w with out := some r } d
        exact nil _ a1 a2 rfl
      · exact nil _ rfl rfl rfl
    · exact nil _ rfl rfl rfl
  | takeErr =>
    simp only [step]
    split
    · rw [hq]
      cases q with
      | nil => simpa only [hq] using nil w rfl rfl rfl
      | cons d q =>
        dsimp only
        have e1 : (handleErr { w with err := some q } d).err = some q := (handleErr_out { w with err := some q } d).2.2.2.2.1
        have e2 : (handleErr { w with err := some q } d).errCount.2 = w.errCount.2 + d.length := by
          unfold handleErr
          split
          · rename_i hd; simp [hd]
          · split <;> simp [count]
        rw [e1, e2]
        refine ⟨rfl, ?_⟩
        simp [chunks]
        omega
    · exact nil _ rfl rfl rfl

/-- C75. Nothing is lost uncounted: the bytes that arrived on a pipe are those counted plus those
`close_protocol` reports as left over, for all traffic, well formed or not, before and after environments
are exchanged, and after failures too. -/
theorem C75_counted (loads : Bytes → Except PyErr J) (k : IntKind) (o : ByteOrder) (env : Option Names) (ops : List Op)
    (hops : ∀ x ∈ ops, x.isAssign = false) :
    let w := run loads (W.ready k o env) ops
    (chunks 1 ops).flatten.length = w.outCount.2 + (leftover w).1 ∧
    (chunks 2 ops).flatten.length = w.errCount.2 + (leftover w).2 := by
  intro w
  obtain ⟨tk, ⟨q, hq, htk⟩, h2, -, -⟩ := out_run loads (W.ready k o env) rfl rfl ops hops
  constructor
  · have := congrArg (fun l => l.flatten.length) htk
    simp only [List.flatten_append, List.length_append, full_flatten] at this
    rw [← this]
    show _ = (run loads (W.ready k o env) ops).outCount.2 + ((run loads (W.ready k o env) ops).out.getD []).flatten.length
    rw [h2, hq]
    simp [W.ready]
  · have key : ∀ (ops : List Op) (w : W J), w.err.isSome → (∀ x ∈ ops, x.isAssign = false) →
        (run loads w ops).errCount.2 + (leftover (run loads w ops)).2 = w.errCount.2 + (leftover w).2 + (chunks 2 ops).flatten.length := by
      intro ops
      induction ops with
      | nil => intro w _ _; simp [run, chunks]
      | cons x ops ih =>
        intro w he ho
        obtain ⟨s1, s2⟩ := err_bytes_step loads w he x (ho x List.mem_cons_self)
        have := ih _ s1 (fun y hy => ho y (List.mem_cons_of_mem _ hy))
        have hc : chunks 2 (x :: ops) = chunks 2 [x] ++ chunks 2 ops := by
          simp [chunks, ← List.filterMap_append]
        rw [hc, List.flatten_append, List.length_append]
        show (run loads (step loads w x).1 ops).errCount.2 + (leftover (run loads (step loads w x).1 ops)).2 = _
        rw [this, s2]
        omega
    have := key ops (W.ready k o env) rfl hops
    show _ = (run loads (W.ready k o env) ops).errCount.2 + (leftover (run loads (W.ready k o env) ops)).2
    rw [this]
    simp [leftover, W.ready]

/-- C75 (negation). If a chunk of standard error ends inside a value, no later event is ever ingested. -/
theorem C75_cut_fails (loads : Bytes → Except PyErr J) (w0 : W J) (env : Names) (hempty : env.kindOf "" = none)
    (h0 : w0.err = some []) (hk : w0.env = some env) (hrx : w0.rx = Rx.new) (hp : w0.polling = true)
    (evs : List Ev) (hg : ∀ e ∈ evs, e.Good env) (s : Bytes) (hs : streamOf env.hdr evs = .ok s) (c : Bytes) (hc : c <+: s)
    (k : Nat) (hkl : k < evs.length) (h1 : offset env.hdr evs k + env.hdr.size ≤ c.length)
    (h2 : c.length < offset env.hdr evs (k + 1)) (later : List Op) (hops : ∀ x ∈ later, x.isAssign = false) :
    (run loads w0 (.data 2 c :: .takeErr :: later)).evs = w0.evs ++ (evs.take k).map (Ev.seen env) := by
  obtain ⟨te, ⟨q, hq, hte⟩, -, hcnt, h3, -⟩ := err_run loads env w0 h0 hk (.data 2 c :: .takeErr :: later) (by
    intro x hx
    rcases List.mem_cons.mp hx with rfl | hx
    · rfl
    · rcases List.mem_cons.mp hx with rfl | hx
      · rfl
      · exact hops x hx)
  have hcne : c ≠ [] := by
    rintro rfl
    have := hdr_size_pos env.hdr
    simp at h1
    omega
  have hch : full (chunks 2 (.data 2 c :: .takeErr :: later)) = c :: full (chunks 2 later) := by
    have : chunks 2 (.data 2 c :: .takeErr :: later) = c :: chunks 2 later := by simp [chunks]
    rw [this, full_cons, if_neg hcne]
  -- the chunk has been handled
  have hmono : ∀ (ops : List Op) (w : W J), w.errCount.1 ≤ (run loads w ops).errCount.1 := by
    intro ops
    induction ops with
    | nil => intro w; exact Nat.le_refl _
    | cons x ops ih =>
      intro w
      refine Nat.le_trans ?_ (ih _)
      cases x with
      | data fd b =>
        simp only [step]
        split
        · exact Nat.le_refl _
        · split
          · split <;> exact Nat.le_refl _
          · exact Nat.le_refl _
      | lost fd =>
        simp only [step]
        split
        · exact Nat.le_refl _
        · split <;> exact Nat.le_refl _
      | exited => exact Nat.le_refl _
      | assign a b => exact Nat.le_refl _
      | meet e => simp only [step]; split <;> exact Nat.le_refl _
      | cancel => exact Nat.le_refl _
      | takeOut =>
        simp only [step]
        split
        · split
          · rename_i d r _
            rw [(handleOut_err loads { w with out := some r } d).2.1]
            exact Nat.le_refl _
          · exact Nat.le_refl _
        · exact Nat.le_refl _
      | takeErr =>
        simp only [step]
        split
        · split
          · rename_i d r _
            unfold handleErr
            split
            · exact Nat.le_refl _
            · split <;> simp [count]
          · exact Nat.le_refl _
        · exact Nat.le_refl _
  have hone : w0.errCount.1 + 1 ≤ (run loads w0 (.data 2 c :: .takeErr :: later)).errCount.1 := by
    refine Nat.le_trans ?_ (hmono later _)
    simp only [step, h0, Option.isSome_some, put_some, hp, if_true, handleErr, hk, if_false]
    simp [count, handleErr, hcne, hk]
  have hlen : 1 ≤ te.length := by
    rw [hcnt] at hone
    simp only at hone
    omega
  cases te with
  | nil => simp at hlen
  | cons t te =>
    rw [hch] at hte
    simp only [List.cons_append, List.cons.injEq] at hte
    obtain ⟨rfl, -⟩ := hte
    rw [h3, hrx]
    have := C33_cut_in_value_fails env hempty evs hg s hs t hc k hkl h1 h2 (all te)
    have e2 := congrArg Prod.fst this
    simp only [all, List.map_cons] at e2 ⊢
    rw [e2]

/-- Once the task has ended nothing is handled. -/
theorem dead (loads : Bytes → Except PyErr J) (w : W J) (hp : w.polling = false) (ops : List Op) :
    (run loads w ops).msgs = w.msgs ∧ (run loads w ops).evs = w.evs ∧ (run loads w ops).polling = false := by
  induction ops generalizing w with
  | nil => exact ⟨rfl, rfl, hp⟩
  | cons x ops ih =>
    have key : (step loads w x).1.msgs = w.msgs ∧ (step loads w x).1.evs = w.evs ∧ (step loads w x).1.polling = false := by
      cases x with
      | data fd b =>
        simp only [step]
        split
        · exact ⟨rfl, rfl, hp⟩
        · split
          · split <;> exact ⟨rfl, rfl, hp⟩
          · exact ⟨rfl, rfl, hp⟩
      | lost fd =>
        simp only [step]
        split
        · exact ⟨rfl, rfl, hp⟩
        · split <;> exact ⟨rfl, rfl, hp⟩
      | exited => exact ⟨rfl, rfl, hp⟩
      | assign a b => exact ⟨rfl, rfl, hp⟩
      | meet e => simp only [step]; split <;> exact ⟨rfl, rfl, hp⟩
      | cancel => exact ⟨rfl, rfl, rfl⟩
      | takeOut => simp only [step, hp]; exact ⟨rfl, rfl, hp⟩
      | takeErr => simp only [step, hp]; exact ⟨rfl, rfl, hp⟩
    obtain ⟨k1, k2, k3⟩ := key
    obtain ⟨h1, h2, h3⟩ := ih _ k3
    exact ⟨h1.trans k1, h2.trans k2, h3⟩

/-- C75 (negation). Anything else on standard error, say a traceback, ends the task when its first bytes
are no known identifier: no message and no event of the process is handled any more. -/
theorem C75_stray_fails (loads : Bytes → Except PyErr J) (w : W J) (env : Names) (hk : w.env = some env) (hp : w.polling = true)
    (hr : w.rx.ready = false) (c : Bytes) (q : List Bytes) (hq : w.err = some (c :: q)) (i t : Int) (hc : c ≠ [])
    (hl : env.hdr.size ≤ (w.rx.buf ++ c).length)
    (hi : decodeInt env.hdr.ki .network (((w.rx.buf ++ c).take env.hdr.size).take env.hdr.ki.size) = .ok i)
    (ht : decodeInt env.hdr.kt .network (((w.rx.buf ++ c).take env.hdr.size).drop env.hdr.ki.size) = .ok t)
    (hn : env.nameOf i = none) (later : List Op) :
    (run loads w (.takeErr :: later)).msgs = w.msgs ∧ (run loads w (.takeErr :: later)).evs = w.evs ∧
    (run loads w (.takeErr :: later)).polling = false := by
  have hround : Rx.round env { w.rx with buf := w.rx.buf ++ c } "" =
      .raised .assertion { w.rx with buf := (w.rx.buf ++ c).drop env.hdr.size, ident := i, ts := t } := by
    unfold Rx.round
    have hpop : pop env.hdr.size (w.rx.buf ++ c) = some ((w.rx.buf ++ c).take env.hdr.size, (w.rx.buf ++ c).drop env.hdr.size) := by
      unfold pop
      rw [if_pos (by exact_mod_cast hl)]
      simp
    simp only [hr, Bool.false_eq_true, if_false, hpop, hi, ht, hn]
  have hparse : (w.rx.parse env c none).err = some .assertion ∧ (w.rx.parse env c none).evs = [] := by
    simp only [Rx.parse]
    rw [if_neg (by simp), consume_raised hround]
    exact ⟨rfl, rfl⟩
  have hstep : (step loads w .takeErr).1.polling = false ∧ (step loads w .takeErr).1.msgs = w.msgs ∧ (step loads w .takeErr).1.evs = w.evs := by
    simp only [step, hp, if_true, hq, handleErr, hc, if_false, hk]
    rw [hparse.1, hparse.2]
    simp
  obtain ⟨d1, d2, d3⟩ := dead loads _ hstep.1 later
  exact ⟨d1.trans hstep.2.1, d2.trans hstep.2.2, d3⟩

/-- C75 (negation). What a process writes before `spawn_exec` has assigned the queues is gone. -/
theorem C75_early_fails (loads : Bytes → Except PyErr J) (k : IntKind) (o : ByteOrder) (early ops : List Op)
    (he : ∀ x ∈ early, x = .exited ∨ (∃ fd b, x = .data fd b) ∨ ∃ fd, x = .lost fd) :
    run loads (W.new k o) (early ++ .assign true true :: ops) = run loads (W.ready k o none) ops := by
  have key : run loads (W.new k o : W J) early = W.new k o := by
    induction early with
    | nil => rfl
    | cons x early ih =>
      have hx : (step loads (W.new k o : W J) x).1 = W.new k o := by
        rcases he x List.mem_cons_self with rfl | ⟨fd, b, rfl⟩ | ⟨fd, rfl⟩
        · rfl
        · simp [step, W.new]
        · simp only [step]
          split
          · rfl
          · split <;> rfl
      show run loads (step loads (W.new k o : W J) x).1 early = _
      rw [hx]
      exact ih (fun y hy => he y (List.mem_cons_of_mem _ hy))
  show (early ++ .assign true true :: ops).foldl (fun w o => (step loads w o).1) (W.new k o) = _
  rw [List.foldl_append]
  have : List.foldl (fun w o => (step loads w o).1) (W.new k o : W J) early = W.new k o := key
  rw [this]
  rfl

/-- C75 (negation). When only standard error is wanted, any standard output raises. -/
theorem C75_stderr_only_fails (loads : Bytes → Except PyErr J) (w : W J) (b : Bytes) :
    (step loads (step loads w (.assign false true)).1 (.data 1 b)).2 = some .assertion ∧
    (step loads (step loads w (.assign true false)).1 (.data 2 b)).2 = none := by
  simp [step]

/-- C75 (negation). Until the peer's environment is known, what the process writes to standard error is
counted and dropped. -/
theorem C75_dropped_fails (loads : Bytes → Except PyErr J) (k : IntKind) (o : ByteOrder) (ops : List Op)
    (hops : ∀ x ∈ ops, ∀ e, x ≠ .meet e) :
    (run loads (W.ready k o none) ops).evs = [] ∧ (run loads (W.ready k o none : W J) ops).rx = Rx.new := by
  have key : ∀ (w : W J), w.env = none → (run loads w ops).evs = w.evs ∧ (run loads w ops).rx = w.rx := by
    induction ops with
    | nil => intro w _; exact ⟨rfl, rfl⟩
    | cons x ops ih =>
      intro w hw
      have hx : (step loads w x).1.evs = w.evs ∧ (step loads w x).1.rx = w.rx ∧ (step loads w x).1.env = none := by
        cases x with
        | data fd b =>
          simp only [step]
          split
          · exact ⟨rfl, rfl, hw⟩
          · split
            · split <;> exact ⟨rfl, rfl, hw⟩
            · exact ⟨rfl, rfl, hw⟩
        | lost fd =>
          simp only [step]
          split
          · exact ⟨rfl, rfl, hw⟩
          · split <;> exact ⟨rfl, rfl, hw⟩
        | exited => exact ⟨rfl, rfl, hw⟩
        | assign a b => exact ⟨rfl, rfl, hw⟩
        | meet e => exact absurd rfl (hops _ List.mem_cons_self e)
        | cancel => exact ⟨rfl, rfl, hw⟩
        | takeOut =>
          simp only [step]
          split
          · split
            · rename_i d r _
              obtain ⟨-, -, a3, a4, -, a6⟩ := handleOut_err loads { w with out := some r } d
              exact ⟨a3, a4, a6.trans hw⟩
            · exact ⟨rfl, rfl, hw⟩
          · exact ⟨rfl, rfl, hw⟩
        | takeErr =>
          simp only [step]
          split
          · split
            · rename_i d r _
              unfold handleErr
              split
              · exact ⟨rfl, rfl, hw⟩
              · simp only [hw]
                exact ⟨trivial, trivial, trivial⟩
            · exact ⟨rfl, rfl, hw⟩
          · exact ⟨rfl, rfl, hw⟩
      obtain ⟨h1, h2, h3⟩ := hx
      obtain ⟨i1, i2⟩ := ih (fun y hy => hops y (List.mem_cons_of_mem _ hy)) _ h3
      exact ⟨i1.trans h1, i2.trans h2⟩
  exact key (W.ready k o none) rfl

/-- C75 (negation). What arrives after the task was cancelled is not handled, only counted. -/
theorem C75_late_fails (loads : Bytes → Except PyErr J) (w : W J) (ops : List Op) :
    (run loads w (.cancel :: ops)).msgs = w.msgs ∧ (run loads w (.cancel :: ops)).evs = w.evs := by
  obtain ⟨h1, h2, -⟩ := dead loads (step loads w .cancel).1 rfl ops
  exact ⟨h1, h2⟩

/-- `Traceback (`, written by an interpreter whose program failed. -/
theorem C75_stray_case (later : List Op) :
    let c : Bytes := [84, 114, 97, 99, 101, 98, 97, 99, 107, 32, 40]
    (run (J := Bytes) Except.ok (W.ready .uint32 .network (some sampleNames)) (.data 2 c :: .takeErr :: later)).polling = false := by
  intro c
  exact (C75_stray_fails Except.ok (step Except.ok (W.ready .uint32 .network (some sampleNames)) (.data 2 c)).1 sampleNames rfl rfl rfl c []
    rfl 21618 7017564117588470560 (by simp [c]) (by decide +kernel) (by rfl) (by rfl) (by rfl) later).2.2

/-- What is in the queue of standard output after an operation, while the task is running. -/
def qOut (q : List Bytes) : Op → List Bytes
  | .data fd b => if fd = 1 then q ++ [b] else q
  | .lost fd => if fd = 1 then q ++ [[]] else q
  | .exited => q ++ [[]]
  | .takeOut => q.tail
  | _ => q

def qErr (q : List Bytes) : Op → List Bytes
  | .data fd b => if fd = 2 then q ++ [b] else q
  | .lost fd => if fd = 2 then q ++ [[]] else q
  | .exited => q ++ [[]]
  | .takeErr => q.tail
  | _ => q

theorem queues (loads : Bytes → Except PyErr J) (ops : List Op) (hops : ∀ x ∈ ops, x.isAssign = false) (w : W J) (q r : List Bytes)
    (h1 : w.out = some q) (h2 : w.err = some r) (hp : (run loads w ops).polling = true) :
    (run loads w ops).out = some (ops.foldl qOut q) ∧ (run loads w ops).err = some (ops.foldl qErr r) := by
  induction ops generalizing w q r with
  | nil => exact ⟨h1, h2⟩
  | cons x ops ih =>
    have hw : w.polling = true := by
      cases hw : w.polling with
      | true => rfl
      | false => rw [(dead loads w hw (x :: ops)).2.2] at hp; cases hp
    have key : (step loads w x).1.out = some (qOut q x) ∧ (step loads w x).1.err = some (qErr r x) := by
      have hx := hops x List.mem_cons_self
      cases x with
      | data fd b =>
        simp only [step, h1, h2, Option.isSome_some, and_true, if_true, qOut, qErr]
        by_cases ha : fd = 1
        · subst ha
          rw [if_pos rfl, if_pos rfl, if_neg (by omega)]
          exact ⟨rfl, rfl⟩
        · rw [if_neg ha, if_neg ha]
          by_cases hb : fd = 2
          · rw [if_pos hb, if_pos hb]; exact ⟨rfl, rfl⟩
          · rw [if_neg hb, if_neg hb]; exact ⟨h1, h2⟩
      | lost fd =>
        simp only [step, qOut, qErr]
        by_cases ha : fd = 1
        · subst ha
          rw [if_pos rfl, if_pos rfl, if_neg (by omega), h1]
          exact ⟨rfl, h2⟩
        · rw [if_neg ha, if_neg ha]
          by_cases hb : fd = 2
          · rw [if_pos hb, if_pos hb, h2]; exact ⟨h1, rfl⟩
          · rw [if_neg hb, if_neg hb]; exact ⟨h1, h2⟩
      | exited => simp only [step, h1, h2, qOut, qErr]; exact ⟨rfl, rfl⟩
      | assign a b => cases hx
      | meet e => simp only [step, qOut, qErr]; split <;> exact ⟨h1, h2⟩
      | cancel => exact ⟨h1, h2⟩
      | takeOut =>
        simp only [step, hw, if_true, h1, qOut, qErr]
        cases q with
        | nil => exact ⟨h1, h2⟩
        | cons d q =>
          dsimp only
          obtain ⟨a1, -, -, -, a5, -⟩ := handleOut_err loads { w with out := some q } d
          rw [hw] at a1 a5
          rw [a1, a5]
          exact ⟨rfl, h2⟩
      | takeErr =>
        simp only [step, hw, if_true, h2, qOut, qErr]
        cases r with
        | nil => exact ⟨h1, h2⟩
        | cons d r =>
          dsimp only
          obtain ⟨a1, -, -, -, a5, -⟩ := handleErr_out { w with err := some r } d
          rw [hw] at a1 a5
          rw [a1, a5]
          exact ⟨h1, rfl⟩
    exact ih (fun y hy => hops y (List.mem_cons_of_mem _ hy)) _ _ _ key.1 key.2 hp

/-- Three messages, cut anywhere, and three events in one chunk. -/
theorem C75_cases (a b : Bytes) (c : Bytes) :
    let sent : List Bytes := [[104, 105], [], [111, 107, 33]]
    (Proc.new .uint32 .network).encodeAll sent = .ok (a ++ b) → streamOf sampleNames.hdr sampleEvs = .ok c →
    (∀ x ∈ sampleEvs, x.Good sampleNames) ∧ ∃ s, streamOf sampleNames.hdr sampleEvs = .ok s ∧
    let ops := [.data 1 a, .takeOut, .data 2 s, .lost 1, .takeErr, .data 1 b, .exited, .takeOut, .takeOut, .takeOut, .takeErr]
    let w := run Except.ok (W.ready .uint32 .network (some sampleNames)) ops
    w.polling = true ∧ w.msgs = sent ∧ w.evs = sampleEvs.map (Ev.seen sampleNames) := by
  intro sent hsent hc
  refine ⟨sample_good, c, hc, ?_⟩
  intro ops w
  have hops : ∀ x ∈ ops, x.isAssign = false ∧ x ≠ .cancel := by
    intro x hx
    simp only [ops, List.mem_cons, List.not_mem_nil, or_false] at hx
    rcases hx with rfl | rfl | rfl | rfl | rfl | rfl | rfl | rfl | rfl | rfl | rfl <;> exact ⟨rfl, by intro h; cases h⟩
  have hs : ∀ m ∈ sent, (m.length : Int) ≤ Spec.hi .uint32 := by decide +kernel
  have c1 : (chunks 1 ops).flatten = a ++ b := by simp [ops, chunks]
  have c2 : chunks 2 ops = [c] := by simp [ops, chunks]
  have hcut : CutWell sampleNames.hdr sampleEvs (chunks 2 ops) := by
    rw [c2]
    intro n hn hex
    obtain ⟨k, -, hk, -⟩ := hex
    have : n = 0 := by simp at hn; exact hn
    subst this
    have := hdr_size_pos sampleNames.hdr
    simp at hk
    omega
  have hp : w.polling = true := C75_servicing_partial Except.ok .uint32 rfl .network sampleNames sent hs (fun m _ => ⟨m, rfl⟩) _ hsent
    sampleEvs sample_good _ hc ops hops (by rw [c1]; exact List.prefix_rfl) (by rw [c2]; simp) hcut
  have hne : w.out = some [] ∧ w.err = some [] := by
    have := queues Except.ok ops (fun x hx => (hops x hx).1) (W.ready .uint32 .network (some sampleNames)) [] [] rfl rfl hp
    simpa [ops, qOut, qErr] using this
  refine ⟨hp, ?_, ?_⟩
  · have := (C75_stdout Except.ok .uint32 rfl .network (some sampleNames) sent hs (fun m _ => ⟨m, rfl⟩) _ hsent ops
      (fun x hx => (hops x hx).1) (by rw [c1]; exact List.prefix_rfl)).2 hp hne.1 c1
    exact (List.map_inj_right (fun _ _ h => Except.ok.inj h)).mp this
  · have := (C75_stderr_partial Except.ok (W.ready .uint32 .network (some sampleNames)) sampleNames rfl rfl rfl sampleEvs sample_good _ hc
      ops (fun x hx => (hops x hx).1) (by rw [c2]; simp) hcut).2 hne.2 (by rw [c2]; simp)
    exact this

end Verif.Net.Pipes
