import Verif.Device.Np05b
/-!
C65: what transcripts, cuts and time-outs do to the known outlet states.
-/
namespace Verif.Np05b

/-! ### One exchange -/

theorem status_ok (cs : List Char) (st : St) (i : Nat) (h : i + cs.length ≤ st.outlets.length)
    (hl : st.chans.length = st.outlets.length) :
    st.status i cs = (⟨st.prev,
      st.outlets.mapIdx (fun j old => if i ≤ j then match cs[j - i]? with | some c => some (c == '1') | none => old else old),
      st.chans.mapIdx (fun j old => if i ≤ j then match cs[j - i]? with | some c => c == '1' | none => old else old),
      st.permits⟩, none) := by
  induction cs generalizing st i with
  | nil =>
    have e1 : st.outlets.mapIdx (fun j old => if i ≤ j then match ([] : List Char)[j - i]? with
        | some c => some (c == '1') | none => old else old) = st.outlets := by
      apply List.ext_getElem?
      intro j
      simp
    have e2 : st.chans.mapIdx (fun j old => if i ≤ j then match ([] : List Char)[j - i]? with
        | some c => c == '1' | none => old else old) = st.chans := by
      apply List.ext_getElem?
      intro j
      simp
    rw [e1, e2]
    rfl
  | cons c cs ih =>
    simp only [List.length_cons] at h
    rw [St.status, if_pos (by omega), ih _ _ (by simp; omega) (by simp [hl])]
    simp only [Prod.mk.injEq, St.mk.injEq, true_and, and_true]
    constructor
    · apply List.ext_getElem?
      intro j
      simp only [List.getElem?_mapIdx, List.getElem?_set]
      by_cases hj : i = j
      · subst hj
        rw [if_pos rfl, if_pos (by omega)]
        simp [List.getElem?_eq_getElem (show i < st.outlets.length by omega), show ¬ i + 1 ≤ i by omega]
      · rw [if_neg hj]
        by_cases hij : i ≤ j
        · have h1 : i + 1 ≤ j := by omega
          have h2 : (c :: cs)[j - i]? = cs[j - (i + 1)]? := by
            rw [show j - i = (j - (i + 1)) + 1 by omega, List.getElem?_cons_succ]
          simp only [hij, h1, h2, if_true]
        · have h1 : ¬ i + 1 ≤ j := by omega
          simp only [hij, h1, if_false]
    · apply List.ext_getElem?
      intro j
      simp only [List.getElem?_mapIdx, List.getElem?_set]
      by_cases hj : i = j
      · subst hj
        rw [if_pos rfl, if_pos (by omega)]
        simp [List.getElem?_eq_getElem (show i < st.chans.length by omega), show ¬ i + 1 ≤ i by omega]
      · rw [if_neg hj]
        by_cases hij : i ≤ j
        · have h1 : i + 1 ≤ j := by omega
          have h2 : (c :: cs)[j - i]? = cs[j - (i + 1)]? := by
            rw [show j - i = (j - (i + 1)) + 1 by omega, List.getElem?_cons_succ]
          simp only [hij, h1, h2, if_true]
        · have h1 : ¬ i + 1 ≤ j := by omega
          simp only [hij, h1, if_false]

theorem status_seen (s : List Char) (st : St) (h : s.length ≤ st.outlets.length) (hl : st.chans.length = st.outlets.length) :
    st.status 0 s.reverse = (⟨st.prev, seen st.outlets s, seenChan st.chans s, st.permits⟩, none) := by
  rw [status_ok _ _ _ (by simpa using h) hl]
  simp [seen, seenChan]
  exact ⟨rfl, rfl⟩

theorem seen_nil (o : List (Option Bool)) : seen o [] = o := by
  apply List.ext_getElem?
  intro j
  simp [seen]

theorem seenChan_nil (o : List Bool) : seenChan o [] = o := by
  apply List.ext_getElem?
  intro j
  simp [seenChan]

theorem seen_length (o : List (Option Bool)) (s : List Char) : (seen o s).length = o.length := by simp [seen]

theorem seenChan_length (o : List Bool) (s : List Char) : (seenChan o s).length = o.length := by simp [seenChan]

theorem split_reply (x : Exch) (h : ∀ p ∈ x.parts, ',' ∉ p) :
    splitOn ',' ('$' :: 'A' :: x.reply) = (if x.good then Cmd.ok.chars else Cmd.fail.chars) :: x.parts := by
  have e : ∀ (a : List Char) (ps : List (List Char)),
      a ++ ps.flatMap (fun p => ',' :: p) = joinWith ',' (a :: ps) := by
    intro a ps
    induction ps generalizing a with
    | nil => rw [List.flatMap_nil, List.append_nil, joinWith]
    | cons p ps ih => rw [List.flatMap_cons, joinWith, ← ih p]; rfl
  have : '$' :: 'A' :: x.reply = (if x.good then Cmd.ok.chars else Cmd.fail.chars) ++ x.parts.flatMap (fun p => ',' :: p) := by
    unfold Exch.reply
    cases x.good <;> rfl
  rw [this, e, splitOn_joinWith]
  intro q hq
  rcases List.mem_cons.mp hq with rfl | hq
  · cases x.good <;> decide
  · exact h q hq

/-- A message while no echo is pending. -/
theorem line_echo (st : St) (m : List Char) (hp : st.prev = []) :
    st.line ('$' :: 'A' :: m) = ({ st with prev := '$' :: 'A' :: m }, none) := by
  rw [St.line, if_neg (by simp), hp]
  rfl

/-- A message while an echo is pending. -/
theorem line_reply (st : St) (e m : List Char) (c : Cmd) (hp : st.prev = '$' :: 'A' :: e)
    (hc : Cmd.parse (('$' :: 'A' :: e).take 3) = .ok c) :
    st.line ('$' :: 'A' :: m) = match st.response c ('$' :: 'A' :: m) with
      | (st, some e) => (st, some e)
      | (st, none) => ({ st with prev := [] }, none) := by
  rw [St.line, if_neg (by simp), hp, if_pos (by rfl), if_pos (by rfl), hc]
  rfl

theorem response_ok (n : Nat) (x : Exch) (hx : x.Ok n) (st : St) (ho : st.outlets.length = n) (hc : st.chans.length = n) :
    st.response x.cmd ('$' :: 'A' :: x.reply) = (⟨st.prev, seen st.outlets x.states, seenChan st.chans x.states,
          st.permits + if x.cmd = .outletStatus then 1 else 0⟩, none) := by
  obtain ⟨h1, h2⟩ := hx
  have er : Cmd.parse (if x.good then Cmd.ok.chars else Cmd.fail.chars) = .ok (if x.good then .ok else .fail) := by
    cases x.good <;> rfl
  simp only [St.response, split_reply x h1, er]
  by_cases hs : x.cmd = .outletStatus
  · rw [if_pos hs, if_pos hs]
    cases hg : x.good with
    | false =>
      have : x.states = [] := by simp [Exch.states, hg]
      rw [this, seen_nil, seenChan_nil]
      simp
    | true =>
      obtain ⟨s, ps, hps, hlen⟩ := h2 hs hg
      have : x.states = s := by simp [Exch.states, hg, hs, hps]
      rw [this]
      simp only [hps, if_true]
      rw [status_seen s _ (by simpa [ho] using hlen) (by simp [ho, hc])]
      simp
  · have : x.states = [] := by simp [Exch.states, hs]
    rw [this, seen_nil, seenChan_nil, if_neg hs, if_neg hs]
    cases x.good <;> simp

/-- An echo and its reply. -/
theorem lines_exchange (n : Nat) (x : Exch) (hx : x.Ok n) (st : St) (hp : st.prev = []) (ho : st.outlets.length = n)
    (hc : st.chans.length = n) (rest : List (List Char)) :
    st.lines (('$' :: 'A' :: x.echo) :: ('$' :: 'A' :: x.reply) :: rest)
      = St.lines ⟨[], seen st.outlets x.states, seenChan st.chans x.states,
          st.permits + if x.cmd = .outletStatus then 1 else 0⟩ rest := by
  have et : Cmd.parse (('$' :: 'A' :: x.echo).take 3) = .ok x.cmd := by
    unfold Exch.echo
    cases x.cmd <;> rfl
  rw [St.lines, line_echo st _ hp]
  show St.lines _ _ = _
  rw [St.lines, line_reply _ _ _ x.cmd rfl et,
    response_ok n x hx ⟨'$' :: 'A' :: x.echo, st.outlets, st.chans, st.permits⟩ ho hc]

theorem St.lines_nil (st : St) : st.lines [] = (st, none) := rfl

/-! ### Transcripts -/

/-- Frames one after the other, as long as none raises. -/
def St.frames (st : St) : List (List Char) → St × Option PyErr
  | [] => (st, none)
  | f :: fs =>
    match st.text f with
    | (st, some e) => (st, some e)
    | (st, none) => St.frames st fs

theorem frames_lines (fs : List (List (Row × Eol))) (h : ∀ f ∈ fs, ∀ r ∈ f, r.1.Ok) (st : St) :
    st.frames (fs.map render) = st.lines ((fs.flatten.flatMap (·.1.messages)).map (fun m => '$' :: 'A' :: m)) := by
  induction fs generalizing st with
  | nil => rfl
  | cons f fs ih =>
    rw [List.map_cons, St.frames, text_render st f (h f List.mem_cons_self), List.flatten_cons, List.flatMap_append,
      List.map_append, lines_append]
    rcases st.lines _ with ⟨st', _ | e⟩
    · exact ih (fun g hg => h g (List.mem_cons_of_mem _ hg)) st'
    · rfl

theorem lines_exchanges (n : Nat) (xs : List Exch) (hx : ∀ x ∈ xs, x.Ok n) (st : St) (hp : st.prev = [])
    (ho : st.outlets.length = n) (hc : st.chans.length = n) :
    st.lines ((xs.flatMap (fun x => [x.echo, x.reply])).map (fun m => '$' :: 'A' :: m))
      = (⟨[], xs.foldl (fun o x => seen o x.states) st.outlets, xs.foldl (fun o x => seenChan o x.states) st.chans,
          st.permits + xs.countP (fun x => x.cmd = .outletStatus)⟩, none) := by
  induction xs generalizing st with
  | nil => obtain ⟨prev, o, c, p⟩ := st; cases hp; rfl
  | cons x xs ih =>
    rw [List.flatMap_cons, List.map_append]
    show st.lines (('$' :: 'A' :: x.echo) :: ('$' :: 'A' :: x.reply)
      :: (xs.flatMap (fun x => [x.echo, x.reply])).map (fun m => '$' :: 'A' :: m)) = _
    rw [lines_exchange n x (hx x List.mem_cons_self) st hp ho hc,
      ih (fun y hy => hx y (List.mem_cons_of_mem _ hy)) _ rfl (by simp [seen_length, ho]) (by simp [seenChan_length, hc])]
    simp only [List.foldl_cons, Prod.mk.injEq, St.mk.injEq, true_and, and_true, List.countP_cons]
    simp only [decide_eq_true_eq]
    omega

/-- C65: however a transcript of exchanges is laid out in lines (several messages on a line, other text
between them) and however its lines are cut into frames, the known outlet states and the channels are
those of the replies, and every status query is signalled once. -/
theorem C65_transcript (n : Nat) (xs : List Exch) (hx : ∀ x ∈ xs, x.Ok n) (fs : List (List (Row × Eol)))
    (h : ∀ f ∈ fs, ∀ r ∈ f, r.1.Ok)
    (hm : fs.flatten.flatMap (·.1.messages) = xs.flatMap (fun x => [x.echo, x.reply])) :
    (St.new n).frames (fs.map render)
      = (⟨[], xs.foldl (fun o x => seen o x.states) (List.replicate n none),
          xs.foldl (fun o x => seenChan o x.states) (List.replicate n false),
          xs.countP (fun x => x.cmd = .outletStatus)⟩, none) := by
  rw [frames_lines fs h, hm, lines_exchanges n xs hx _ rfl (by simp [St.new]) (by simp [St.new])]
  simp [St.new]

theorem seen_at (o : List (Option Bool)) (s : List Char) (i : Nat) (hi : i < s.length) (ho : i < o.length) :
    (seen o s)[i]? = some (some (s[s.length - 1 - i] == '1')) := by
  have hr : s.reverse[i]? = some s[s.length - 1 - i] := by
    rw [List.getElem?_eq_getElem (by simpa using hi), List.getElem_reverse]
  simp only [seen, List.getElem?_mapIdx, hr, List.getElem?_eq_getElem ho]
  rfl

theorem seenChan_at (o : List Bool) (s : List Char) (i : Nat) (hi : i < s.length) (ho : i < o.length) :
    (seenChan o s)[i]? = some (s[s.length - 1 - i] == '1') := by
  have hr : s.reverse[i]? = some s[s.length - 1 - i] := by
    rw [List.getElem?_eq_getElem (by simpa using hi), List.getElem_reverse]
  simp only [seenChan, List.getElem?_mapIdx, hr, List.getElem?_eq_getElem ho]
  rfl

/-- The latest accepted status decides: outlet `i + 1` is on exactly if the character `i` from the right
is a `1`. -/
theorem C65_latest (n : Nat) (xs : List Exch) (x : Exch) (hx : ∀ y ∈ xs ++ [x], y.Ok n)
    (hs : x.cmd = .outletStatus) (hg : x.good = true) (s : List Char) (ps : List (List Char)) (hp : x.parts = s :: ps)
    (fs : List (List (Row × Eol))) (h : ∀ f ∈ fs, ∀ r ∈ f, r.1.Ok)
    (hm : fs.flatten.flatMap (·.1.messages) = (xs ++ [x]).flatMap (fun x => [x.echo, x.reply]))
    (i : Nat) (hi : i < s.length) :
    ((St.new n).frames (fs.map render)).1.outlets[i]? = some (some (s[s.length - 1 - i] == '1'))
      ∧ ((St.new n).frames (fs.map render)).1.chans[i]? = some (s[s.length - 1 - i] == '1') := by
  have hn : s.length ≤ n := by
    obtain ⟨s', ps', e, hl⟩ := (hx x (by simp)).2 hs hg
    rw [hp] at e
    cases e
    exact hl
  have hst : x.states = s := by simp [Exch.states, hs, hg, hp]
  have hlen : ∀ (xs : List Exch) (o : List (Option Bool)), (xs.foldl (fun o x => seen o x.states) o).length = o.length := by
    intro xs
    induction xs with
    | nil => intro o; rfl
    | cons x xs ih => intro o; rw [List.foldl_cons, ih, seen_length]
  have hlen' : ∀ (xs : List Exch) (o : List Bool), (xs.foldl (fun o x => seenChan o x.states) o).length = o.length := by
    intro xs
    induction xs with
    | nil => intro o; rfl
    | cons x xs ih => intro o; rw [List.foldl_cons, ih, seenChan_length]
  rw [C65_transcript n _ hx fs h hm]
  simp only [List.foldl_append, List.foldl_cons, List.foldl_nil, hst]
  exact ⟨seen_at _ _ _ hi (by rw [hlen]; simp; omega), seenChan_at _ _ _ hi (by rw [hlen']; simp; omega)⟩

/-! ### Any text -/

/-- Channels and known states agree, and there are `n` of each. -/
def Agree (n : Nat) (st : St) : Prop :=
  st.outlets.length = n ∧ st.chans.length = n ∧ ∀ (i : Nat) (b : Bool), st.outlets[i]? = some (some b) → st.chans[i]? = some b

theorem agree_status (n : Nat) (cs : List Char) (st : St) (i : Nat) (h : Agree n st) : Agree n (st.status i cs).1 := by
  induction cs generalizing st i with
  | nil => exact h
  | cons c cs ih =>
    rw [St.status]
    split
    · rename_i hi
      apply ih
      obtain ⟨h1, h2, h3⟩ := h
      refine ⟨by simp [h1], by simp [h2], fun j b hb => ?_⟩
      simp only [List.getElem?_set] at hb ⊢
      by_cases hj : i = j
      · subst hj
        rw [if_pos rfl, if_pos hi] at hb
        rw [if_pos rfl, if_pos (by omega)]
        simpa using hb
      · rw [if_neg hj] at hb ⊢
        exact h3 j b hb
    · exact h

theorem agree_response (n : Nat) (st : St) (c : Cmd) (r : List Char) (h : Agree n st) : Agree n (st.response c r).1 := by
  unfold St.response
  split
  · exact h
  · split
    · exact h
    · split
      · exact h
      · split
        · split
          · split
            · exact h
            · next states _ _ =>
              have := agree_status n states.reverse st 0 h
              rcases hs : st.status 0 states.reverse with ⟨st', _ | e⟩
              · rw [hs] at this; exact ⟨this.1, this.2.1, this.2.2⟩
              · rw [hs] at this; exact this
          · exact ⟨h.1, h.2.1, h.2.2⟩
        · exact h

theorem agree_line (n : Nat) (st : St) (l : List Char) (h : Agree n st) : Agree n (st.line l).1 := by
  unfold St.line
  split
  · exact h
  · split
    · split
      · split
        · exact h
        · rename_i c _
          have := agree_response n st c l h
          rcases hs : st.response c l with ⟨st', _ | e⟩
          · rw [hs] at this; exact ⟨this.1, this.2.1, this.2.2⟩
          · rw [hs] at this; exact this
      · exact ⟨h.1, h.2.1, h.2.2⟩
    · exact h

theorem agree_lines (n : Nat) (ls : List (List Char)) (st : St) (h : Agree n st) : Agree n (st.lines ls).1 := by
  induction ls generalizing st with
  | nil => exact h
  | cons l ls ih =>
    rw [St.lines]
    have := agree_line n st l h
    rcases he : st.line l with ⟨st', _ | e⟩
    · rw [he] at this; exact ih st' this
    · rw [he] at this; exact this

/-- C65: whatever text arrives, in whatever pieces and even if processing it raises, the channel of an
outlet whose state is known shows that state. -/
theorem C65_agree (n : Nat) (frames : List (List Char)) :
    let st := frames.foldl (fun st f => (st.text f).1) (St.new n)
    st.outlets.length = n ∧ st.chans.length = n ∧ ∀ (i : Nat) (b : Bool), st.outlets[i]? = some (some b) → st.chans[i]? = some b := by
  have : ∀ st, Agree n st → Agree n (frames.foldl (fun st f => (st.text f).1) st) := by
    induction frames with
    | nil => intro st h; exact h
    | cons f fs ih => intro st h; exact ih _ (agree_lines n _ st h)
  exact this _ ⟨by simp [St.new], by simp [St.new], fun i b h => by simp [St.new, List.getElem?_replicate] at h⟩

/-! ### Where the code goes wrong -/

theorem status_long (cs : List Char) (st : St) (i : Nat) (h : st.outlets.length < i + cs.length) (hi : i ≤ st.outlets.length) :
    ∃ o c, st.status i cs = (⟨st.prev, o, c, st.permits⟩, some .index) ∧ o.length = st.outlets.length := by
  induction cs generalizing st i with
  | nil => simp at h; omega
  | cons c cs ih =>
    rw [St.status]
    by_cases hlt : i < st.outlets.length
    · rw [if_pos hlt]
      obtain ⟨o, c', e, hl⟩ := ih { st with outlets := st.outlets.set i (some (c == '1')), chans := st.chans.set i (c == '1') }
        (i + 1) (by simp at h ⊢; omega) (by simp; omega)
      exact ⟨o, c', e, by simpa using hl⟩
    · rw [if_neg hlt]
      exact ⟨st.outlets, st.chans, rfl, rfl⟩

/-- C65 fails for replies with more states than outlets: `IndexError`, the waiting query is never
signalled, and the echo stays pending. -/
theorem C65_too_many_fails (n : Nat) (s : List Char) (h : n < s.length) (hd : '$' ∉ s) (hc : ',' ∉ s)
    (hb : ∀ c ∈ s, isBreak c = false) :
    let r := (St.new n).text (render [(.msgs [] [['5']], .crlf), (.msgs [] ['0' :: ',' :: s], .crlf)])
    r.2 = some .index ∧ r.1.permits = 0 ∧ r.1.prev = ['$', 'A', '5'] := by
  intro r
  have hr : r = (St.new n).lines [['$', 'A', '5'], '$' :: 'A' :: '0' :: ',' :: s] := by
    show (St.new n).text _ = _
    rw [text_render _ _ (by
      intro x hx
      simp only [List.mem_cons, List.not_mem_nil, or_false] at hx
      rcases hx with rfl | rfl
      · exact ⟨by simp, by simp, by simp; decide, by simp, fun _ => rfl⟩
      · refine ⟨by simp, by simp, fun m hm => ?_, by simp, fun _ => rfl⟩
        rw [List.mem_singleton.mp hm]
        refine ⟨by simpa using hd, fun c hc => ?_⟩
        rcases List.mem_cons.mp hc with rfl | hc
        · decide
        · rcases List.mem_cons.mp hc with rfl | hc
          · decide
          · exact hb c hc)]
    rfl
  have hr2 : r = St.lines ⟨['$', 'A', '5'], (St.new n).outlets, (St.new n).chans, (St.new n).permits⟩
      ['$' :: 'A' :: '0' :: ',' :: s] := by
    rw [hr, St.lines, line_echo _ _ rfl]
  rw [St.lines, line_reply _ ['5'] _ .outletStatus rfl rfl] at hr2
  have hs := split_reply ⟨.outletStatus, [], true, [s]⟩ (by simpa using hc)
  simp only [Exch.reply, if_true, List.flatMap_cons, List.flatMap_nil, List.append_nil] at hs
  obtain ⟨o, c, e, -⟩ := status_long s.reverse ⟨['$', 'A', '5'], (St.new n).outlets, (St.new n).chans, (St.new n).permits⟩ 0
    (by simpa [St.new] using h) (by simp)
  have : St.response ⟨['$', 'A', '5'], (St.new n).outlets, (St.new n).chans, (St.new n).permits⟩ .outletStatus
      ('$' :: 'A' :: '0' :: ',' :: s) = (⟨['$', 'A', '5'], o, c, 0⟩, some .index) := by
    unfold St.response
    rw [hs]
    show (match St.status _ 0 s.reverse with | (st, some e) => _ | (st, none) => _) = _
    rw [e]
    rfl
  rw [this] at hr2
  rw [hr2]
  exact ⟨rfl, rfl, rfl⟩

/-- C65 fails for a prompt in front of the echo: the echo is taken for other text, the reply for an echo,
and the next exchange raises `AssertionError`. -/
theorem C65_prompt_fails (n : Nat) (s : List Char) (hd : '$' ∉ s) (hb : ∀ c ∈ s, isBreak c = false) :
    let st := (St.new n).text (['>', '$', 'A', '5', '\r', '\n', '$', 'A', '0', ','] ++ s ++ ['\r', '\n'])
    st = ({ St.new n with prev := ['$', 'A', '0', ','] ++ s }, none)
      ∧ (st.1.text ['$', 'A', '5', '\r', '\n']).2 = some .assertion := by
  intro st
  have hbr : ∀ c ∈ ['$', 'A', '0', ','] ++ s, isBreak c = false := by
    intro c hc
    rcases List.mem_append.mp hc with hc | hc
    · simp only [List.mem_cons, List.not_mem_nil, or_false] at hc
      rcases hc with rfl | rfl | rfl | rfl <;> decide
    · exact hb c hc
  have h1 : splitLines (['>', '$', 'A', '5', '\r', '\n', '$', 'A', '0', ','] ++ s ++ ['\r', '\n'])
      = [['>', '$', 'A', '5'], ['$', 'A', '0', ','] ++ s] := by
    have := splitLines_join [(['>', '$', 'A', '5'], .crlf), (['$', 'A', '0', ','] ++ s, .crlf)] (by
      intro l hl
      simp only [List.mem_cons, List.not_mem_nil, or_false] at hl
      rcases hl with rfl | rfl
      · decide
      · exact hbr) []
    simpa [Eol.chars, splitLines_nil] using this
  have h2 : pieces (['$', 'A', '0', ','] ++ s) = [['$', 'A', '0', ','] ++ s] := by
    have e := splitMark_glue [] ['0' :: ',' :: s] (by simp) (by simpa using hd)
    have e' : splitMark (['$', 'A', '0', ','] ++ s) = [[], '0' :: ',' :: s] := by simpa [glue] using e
    rw [pieces, e', if_neg (by simp)]
  have e : st = ({ St.new n with prev := ['$', 'A', '0', ','] ++ s }, none) := by
    show (St.new n).text _ = _
    rw [St.text, h1, List.flatMap_cons, List.flatMap_cons, List.flatMap_nil, h2]
    show (St.new n).lines (['>', '$', 'A', '5'] :: _) = _
    rw [St.lines]
    show St.lines _ ['$' :: 'A' :: '0' :: ',' :: s] = _
    rw [St.lines, line_echo _ _ rfl]
    rfl
  refine ⟨e, ?_⟩
  rw [e]
  show (St.lines _ [['$', 'A', '5']]).2 = _
  rw [St.lines, line_reply _ ('0' :: ',' :: s) ['5'] .ok rfl rfl]
  rfl

/-- C65 fails when a reply is cut in two: the states before the cut are taken for all of them, whatever
comes behind. -/
theorem C65_cut_fails (n : Nat) (a b : List Char) (ha : a.length ≤ n) (hd : '$' ∉ a ++ b) (hc : ',' ∉ a)
    (hb : ∀ c ∈ a ++ b, isBreak c = false) :
    (St.new n).frames [['$', 'A', '5', '\r', '\n', '$', 'A', '0', ','] ++ a, b ++ ['\r', '\n']]
      = (⟨[], seen (List.replicate n none) a, seenChan (List.replicate n false) a, 1⟩, none) := by
  have hda : '$' ∉ a := fun h => hd (List.mem_append_left _ h)
  have hdb : '$' ∉ b := fun h => hd (List.mem_append_right _ h)
  have hbr : ∀ c ∈ ['$', 'A', '0', ','] ++ a, isBreak c = false := by
    intro c hc
    rcases List.mem_append.mp hc with hc | hc
    · simp only [List.mem_cons, List.not_mem_nil, or_false] at hc
      rcases hc with rfl | rfl | rfl | rfl <;> decide
    · exact hb c (List.mem_append_left _ hc)
  have h1 : splitLines (['$', 'A', '5', '\r', '\n', '$', 'A', '0', ','] ++ a) = [['$', 'A', '5'], ['$', 'A', '0', ','] ++ a] := by
    have := splitLines_join [(['$', 'A', '5'], .crlf)] (by
      intro l hl
      rw [List.mem_singleton.mp hl]
      decide) (['$', 'A', '0', ','] ++ a)
    rw [splitLines_last _ hbr (by simp)] at this
    simpa [Eol.chars, splitLines_nil] using this
  have h2 : pieces (['$', 'A', '0', ','] ++ a) = [['$', 'A', '0', ','] ++ a] := by
    have e := splitMark_glue [] ['0' :: ',' :: a] (by simp) (by simpa using hda)
    have e' : splitMark (['$', 'A', '0', ','] ++ a) = [[], '0' :: ',' :: a] := by simpa [glue] using e
    rw [pieces, e', if_neg (by simp)]
  have e1 : (St.new n).text (['$', 'A', '5', '\r', '\n', '$', 'A', '0', ','] ++ a)
      = (⟨[], seen (List.replicate n none) a, seenChan (List.replicate n false) a, 1⟩, none) := by
    rw [St.text, h1, List.flatMap_cons, List.flatMap_cons, List.flatMap_nil, h2]
    have := lines_exchange n ⟨.outletStatus, [], true, [a]⟩ ⟨by simpa using hc, fun _ _ => ⟨a, [], rfl, ha⟩⟩ (St.new n) rfl
      (by simp [St.new]) (by simp [St.new]) []
    simpa [Exch.echo, Exch.reply, Exch.states, Cmd.chars, St.new, pieces, splitMark, St.lines_nil] using this
  have e2 : ∀ st : St, st.text (b ++ ['\r', '\n']) = (st, none) := by
    intro st
    have := text_render st [(.noise b, .crlf)] (by
      intro r hr
      rw [List.mem_singleton.mp hr]
      exact ⟨hdb, fun c hc => hb c (List.mem_append_right _ hc)⟩)
    simpa [render, Row.chars, Eol.chars, Row.messages, St.lines] using this
  rw [St.frames, e1]
  show St.frames _ [_] = _
  rw [St.frames, e2]
  rfl

/-- So outlet 1 is reported off although the whole reply says it is on, and on although it is off. -/
example : ((St.new 5).frames [['$', 'A', '5', '\r', '\n', '$', 'A', '0', ',', '0', '1', '0'], ['0', '1', '\r', '\n']]).1.outlets
      = [some false, some true, some false, none, none]
    ∧ ((St.new 5).frames [['$', 'A', '5', '\r', '\n', '$', 'A', '0', ',', '0', '1', '0', '0', '1', '\r', '\n']]).1.outlets
      = [some true, some false, some false, some true, some false] := by
  decide +kernel

/-! ### Commands -/

/-- A connection with at most one command under way (the lock, np_05b.py 133): the outlet index and state it
asked for. `sent` and `answered` count status queries and their answers. -/
structure Sess where
  st : St
  busy : Option (Nat × Bool)
  sent : Nat
  answered : Nat
  deriving DecidableEq

/-- How `set_outlet_state` ends, np_05b.py 146–164; `later` if it waits. -/
inductive Out where
  | later
  | done (r : Bool)
  | raised (e : PyErr)
  deriving DecidableEq

/-- `set_outlet_state` up to its first suspension, np_05b.py 146–164 with 129–144, the lock being free. -/
def Sess.set (n : Nat) (s : Sess) (idx : Int) (state : Bool) : Sess × Out :=
  if 0 ≤ idx - 1 ∧ idx - 1 ≤ n then
    match s.st.outlets[(idx - 1).toNat]? with
    | none => (s, .raised .index)
    | some o =>
      if o ≠ some state then
        if 0 < s.st.permits then
          ({ s with sent := s.sent + 1, st := { s.st with permits := s.st.permits - 1 } }, .done (o == some state))
        else ({ s with sent := s.sent + 1, busy := some ((idx - 1).toNat, state) }, .later)
      else (s, .done true)
  else (s, .done false)

/-- The waiting command goes on once there is a permit, np_05b.py 144 and 162. -/
def Sess.wake (s : Sess) : Sess × Out :=
  match s.busy with
  | none => (s, .later)
  | some (i, state) =>
    if 0 < s.st.permits then
      ({ s with busy := none, st := { s.st with permits := s.st.permits - 1 } }, .done (s.st.outlets[i]? == some (some state)))
    else (s, .later)

/-- What happens to a connection: a call of `set_outlet_state`, the device answering a status query, the waiting
command going on, or its time-out (np_05b.py 135). -/
inductive Op where
  | set (idx : Int) (state : Bool)
  | answer (states : List Char)
  | wake
  | timeout

/-- One step. A second call waits for the lock, and the device answers each query at most once. -/
def Sess.step (n : Nat) (s : Sess) : Op → Sess × Out
  | .set idx state => if s.busy = none then s.set n idx state else (s, .later)
  | .answer states =>
    if s.answered < s.sent then
      ({ s with answered := s.answered + 1
                st := (s.st.text (['$', 'A', '5', '\r', '\n', '$', 'A', '0', ','] ++ states ++ ['\r', '\n'])).1 }, .later)
    else (s, .later)
  | .wake => s.wake
  | .timeout => if s.busy = none then (s, .later) else ({ s with busy := none }, .raised .runtime)

/-- Connected, with nothing asked yet. -/
def Sess.new (n : Nat) : Sess := ⟨St.new n, none, 0, 0⟩

def Sess.run (n : Nat) (s : Sess) (ops : List Op) : Sess := ops.foldl (fun s op => (s.step n op).1) s

/-- Complete states of `n` outlets. -/
def Full (n : Nat) (states : List Char) : Prop :=
  states.length = n ∧ ∀ c ∈ states, c = '0' ∨ c = '1'

/-- No time-out occurs and every answer is complete. -/
def Op.Calm (n : Nat) : Op → Prop
  | .answer states => Full n states
  | .timeout => False
  | _ => True

theorem answer_text (n : Nat) (st : St) (states : List Char) (h : Full n states) (hp : st.prev = [])
    (ho : st.outlets.length = n) (hc : st.chans.length = n) :
    st.text (['$', 'A', '5', '\r', '\n', '$', 'A', '0', ','] ++ states ++ ['\r', '\n'])
      = (⟨[], seen st.outlets states, seenChan st.chans states, st.permits + 1⟩, none) := by
  have hx : ∀ c ∈ states, c ≠ '$' ∧ c ≠ ',' ∧ isBreak c = false := by
    intro c hc
    rcases h.2 c hc with rfl | rfl <;> decide
  have e := text_render st [(.msgs [] [['5']], .crlf), (.msgs [] ['0' :: ',' :: states], .crlf)] (by
    intro r hr
    simp only [List.mem_cons, List.not_mem_nil, or_false] at hr
    rcases hr with rfl | rfl
    · exact ⟨by simp, by simp, by simp; decide, by simp, fun _ => rfl⟩
    · refine ⟨by simp, by simp, fun m hm => ?_, by simp, fun _ => rfl⟩
      rw [List.mem_singleton.mp hm]
      refine ⟨?_, fun c hc => ?_⟩
      · intro hd
        rcases List.mem_cons.mp hd with hd | hd
        · exact absurd hd (by decide)
        · rcases List.mem_cons.mp hd with hd | hd
          · exact absurd hd (by decide)
          · exact (hx _ hd).1 rfl
      · rcases List.mem_cons.mp hc with rfl | hc
        · decide
        · rcases List.mem_cons.mp hc with rfl | hc
          · decide
          · exact (hx c hc).2.2)
  have e2 := lines_exchange n ⟨.outletStatus, [], true, [states]⟩
    ⟨by simpa using fun h => (hx _ h).2.1 rfl, fun _ _ => ⟨states, [], rfl, by rw [h.1]; exact Nat.le_refl _⟩⟩ st hp ho hc []
  have e3 : render [(.msgs [] [['5']], .crlf), (.msgs [] ['0' :: ',' :: states], .crlf)]
      = ['$', 'A', '5', '\r', '\n', '$', 'A', '0', ','] ++ states ++ ['\r', '\n'] := by
    simp [render, Row.chars, glue, Eol.chars]
  rw [← e3, e]
  simpa [Exch.echo, Exch.reply, Exch.states, Cmd.chars, Row.messages, St.lines] using e2

/-- Held by every calm history. -/
structure Good (n : Nat) (s : Sess) : Prop where
  prev : s.st.prev = []
  outlets : s.st.outlets.length = n
  chans : s.st.chans.length = n
  le : s.answered ≤ s.sent
  idle : s.busy = none → s.sent = s.answered ∧ s.st.permits = 0
  busy : s.busy ≠ none → s.sent + s.st.permits = s.answered + 1 ∧ s.st.permits ≤ 1

theorem good_new (n : Nat) : Good n (Sess.new n) :=
  ⟨rfl, by simp [Sess.new, St.new], by simp [Sess.new, St.new], Nat.le_refl _, fun _ => ⟨rfl, rfl⟩, fun h => absurd rfl h⟩

theorem good_step (n : Nat) (s : Sess) (op : Op) (h : Good n s) (hc : op.Calm n) : Good n (s.step n op).1 := by
  cases op with
  | set idx state =>
    by_cases hb : s.busy = none
    · have hi := h.idle hb
      rw [Sess.step, if_pos hb, Sess.set]
      split
      · split
        · exact h
        · split
          · rw [if_neg (by omega)]
            refine ⟨h.prev, h.outlets, h.chans, ?_, fun e => (by cases e), fun _ => ?_⟩
            · show s.answered ≤ s.sent + 1
              omega
            · show s.sent + 1 + s.st.permits = s.answered + 1 ∧ s.st.permits ≤ 1
              omega
          · exact h
      · exact h
    · rw [Sess.step, if_neg hb]
      exact h
  | answer states =>
    rw [Sess.step]
    split
    · rename_i hlt
      rw [answer_text n s.st states hc h.prev h.outlets h.chans]
      refine ⟨rfl, by simp [seen_length, h.outlets], by simp [seenChan_length, h.chans], hlt, fun hb => ?_, fun hb => ?_⟩
      · have := h.idle hb
        omega
      · have := h.busy hb
        show s.sent + (s.st.permits + 1) = s.answered + 1 + 1 ∧ s.st.permits + 1 ≤ 1
        omega
    · exact h
  | wake =>
    rw [Sess.step, Sess.wake]
    split
    · exact h
    · rename_i i state hb
      have := h.busy (by rw [hb]; simp)
      split
      · refine ⟨h.prev, h.outlets, h.chans, h.le, fun _ => ?_, fun e => absurd rfl e⟩
        show s.sent = s.answered ∧ s.st.permits - 1 = 0
        omega
      · exact h
  | timeout => exact hc.elim

theorem good_run (n : Nat) (ops : List Op) (hc : ∀ op ∈ ops, op.Calm n) : Good n ((Sess.new n).run n ops) := by
  have : ∀ s, Good n s → Good n (s.run n ops) := by
    induction ops with
    | nil => intro s h; exact h
    | cons op ops ih =>
      intro s h
      exact ih (fun o ho => hc o (List.mem_cons_of_mem _ ho)) _ (good_step n s op h (hc op List.mem_cons_self))
  exact this _ (good_new n)

/-- C65: after any history without time-outs, a command that waited ends only when all status queries sent so
far (the last of them its own) have been answered, and it says whether the outlet was then reported in the state asked for. -/
theorem C65_fresh_partial (n : Nat) (ops : List Op) (hc : ∀ op ∈ ops, op.Calm n) (r : Bool)
    (h : (((Sess.new n).run n ops).step n .wake).2 = .done r) :
    let s := (Sess.new n).run n ops
    s.answered = s.sent ∧ ∃ i state, s.busy = some (i, state) ∧ (r = true ↔ s.st.outlets[i]? = some (some state)) := by
  intro s
  have g : Good n s := good_run n ops hc
  change (s.wake).2 = _ at h
  unfold Sess.wake at h
  split at h
  · cases h
  · rename_i i state hb
    split at h
    · have := g.busy (by rw [hb]; simp)
      cases h
      exact ⟨by omega, i, state, hb, by simp⟩
    · cases h

/-- And a command that does not wait has sent nothing: the outlet is known to be in that state, or there is no such outlet. -/
theorem C65_at_once_partial (n : Nat) (ops : List Op) (hc : ∀ op ∈ ops, op.Calm n) (idx : Int) (state r : Bool)
    (h : (((Sess.new n).run n ops).step n (.set idx state)).2 = .done r) :
    let s := (Sess.new n).run n ops
    (s.step n (.set idx state)).1 = s
      ∧ (r = true ↔ 1 ≤ idx ∧ s.st.outlets[(idx - 1).toNat]? = some (some state)) := by
  intro s
  have g : Good n s := good_run n ops hc
  change (s.step n (.set idx state)).2 = _ at h
  rw [Sess.step] at h ⊢
  by_cases hb : s.busy = none
  · have hp := (g.idle hb).2
    rw [if_pos hb] at h ⊢
    unfold Sess.set at h ⊢
    by_cases hi : 0 ≤ idx - 1 ∧ idx - 1 ≤ (n : Int)
    · rw [if_pos hi] at h ⊢
      rcases ho : s.st.outlets[(idx - 1).toNat]? with _ | o
      · rw [ho] at h; cases h
      · rw [ho] at h
        dsimp only at h ⊢
        by_cases hne : o ≠ some state
        · rw [if_pos hne, if_neg (by omega)] at h; cases h
        · rw [if_neg hne] at h ⊢
          cases h
          refine ⟨rfl, by simp; exact ⟨by omega, by simpa using hne⟩⟩
    · rw [if_neg hi] at h ⊢
      cases h
      refine ⟨rfl, by simp; intro h1; rw [List.getElem?_eq_none (by have := g.outlets; omega)]; simp⟩
  · rw [if_neg hb] at h; cases h

/-- C65 fails for the index behind the last outlet: `IndexError` in place of `False`. -/
theorem C65_index_fails (n : Nat) (s : Sess) (h : s.st.outlets.length = n) (hb : s.busy = none) (state : Bool) :
    s.step n (.set (n + 1) state) = (s, .raised .index) := by
  rw [Sess.step, if_pos hb, Sess.set, if_pos (by omega), List.getElem?_eq_none (by omega)]

/-- C65 fails after a time-out: the late answer leaves a permit, so the next command that changes a known outlet sends
its query and says `False` at once, before the device could answer it. -/
theorem C65_stale_fails (n : Nat) (idx : Int) (state : Bool) (states : List Char) (hs : Full n states)
    (h1 : 1 ≤ idx) (hn : idx ≤ n) (j : Int) (hj1 : 1 ≤ j) (hjn : j ≤ n) (want : Bool)
    (hw : states[n - j.toNat]? ≠ some (if want then '1' else '0')) :
    let s := (Sess.new n).run n [.set idx state, .timeout, .answer states]
    (s.step n (.set j want)).2 = .done false
      ∧ (s.step n (.set j want)).1.sent = 2 ∧ (s.step n (.set j want)).1.answered = 1 := by
  have hi0 : (Sess.new n).step n (.set idx state)
      = (⟨St.new n, some ((idx - 1).toNat, state), 1, 0⟩, .later) := by
    have ho : (Sess.new n).st.outlets[(idx - 1).toNat]? = some none := by
      show (List.replicate n none)[_]? = _
      rw [List.getElem?_replicate, if_pos (by omega)]
    rw [Sess.step, if_pos (by rfl), Sess.set, if_pos (by omega), ho]
    rfl
  have ha : Sess.step n ⟨St.new n, none, 1, 0⟩ (.answer states)
      = (⟨⟨[], seen (List.replicate n none) states, seenChan (List.replicate n false) states, 1⟩, none, 1, 1⟩, .later) := by
    rw [Sess.step, if_pos (show 0 < 1 by decide), answer_text n _ states hs rfl (by simp [St.new]) (by simp [St.new])]
    rfl
  have hr : (Sess.new n).run n [.set idx state, .timeout, .answer states]
      = ⟨⟨[], seen (List.replicate n none) states, seenChan (List.replicate n false) states, 1⟩, none, 1, 1⟩ := by
    show (Sess.step n (Sess.step n ((Sess.new n).step n (.set idx state)).1 .timeout).1 (.answer states)).1 = _
    rw [hi0]
    show (Sess.step n ⟨St.new n, none, 1, 0⟩ (.answer states)).1 = _
    rw [ha]
  have hlen := hs.1
  have hk : (j - 1).toNat < states.length := by omega
  have ho := seen_at (List.replicate n none) states (j - 1).toNat hk (by simp; omega)
  have hne : some (states[states.length - 1 - (j - 1).toNat] == '1') ≠ some want := by
    intro e
    have e' : states[n - j.toNat]? = some states[states.length - 1 - (j - 1).toNat] := by
      rw [← List.getElem?_eq_getElem]
      congr 1
      omega
    rw [e'] at hw
    have hc := hs.2 _ (List.getElem_mem (show states.length - 1 - (j - 1).toNat < states.length by omega))
    generalize states[states.length - 1 - (j - 1).toNat] = c at e hw hc
    rcases hc with rfl | rfl <;> cases want <;> simp at e hw
  intro s
  have hst : s.step n (.set j want)
      = (⟨⟨[], seen (List.replicate n none) states, seenChan (List.replicate n false) states, 0⟩, none, 2, 1⟩, .done false) := by
    show Sess.step n ((Sess.new n).run n [.set idx state, .timeout, .answer states]) _ = _
    rw [hr, Sess.step, if_pos rfl, Sess.set, if_pos (by omega)]
    dsimp only
    rw [ho]
    dsimp only
    rw [if_pos hne, if_pos (by decide)]
    simpa using hne
  rw [hst]
  exact ⟨rfl, rfl, rfl⟩

/-! ### The conditions can be met -/

/-- C65 fails after a marker in front of anything but the known codes, such as noise on the line: it is kept as the
command, every marked line from then on raises `ValueError`, and no status is ever taken over again, whatever
arrives. -/
theorem C65_noise_fails (st : St) (hp : isCommand st.prev = true) (hu : ∀ k : Cmd, st.prev.take 3 ≠ k.chars) (data : List Char) :
    (st.text data).1 = st ∧
    ((∃ l ∈ splitLines data, ∃ p ∈ pieces l, isCommand p = true) → (st.text data).2 = some .value) := by
  have hparse : Cmd.parse (st.prev.take 3) = .error .value := by
    unfold Cmd.parse
    have h3 := hu .setOutlet
    have h5 := hu .outletStatus
    have h7 := hu .allOutlets
    have h0 := hu .ok
    have hF := hu .fail
    simp only [Cmd.chars] at h3 h5 h7 h0 hF
    rw [if_neg h3, if_neg h5, if_neg h7, if_neg h0, if_neg hF]
  have hline : ∀ l, st.line l = (st, if isCommand l then some .value else none) := by
    intro l
    unfold St.line
    by_cases h1 : l = [] ∨ l = ['>']
    · rw [if_pos h1]
      rcases h1 with rfl | rfl <;> rfl
    · rw [if_neg h1]
      cases h2 : isCommand l
      · simp
      · simp only [if_true, hp, hparse]
  have hlines : ∀ ls, (st.lines ls).1 = st ∧ ((∃ p ∈ ls, isCommand p = true) → (st.lines ls).2 = some .value) := by
    intro ls
    induction ls with
    | nil => exact ⟨rfl, by simp⟩
    | cons l ls ih =>
      rw [St.lines, hline]
      cases h2 : isCommand l
      · simp only [Bool.false_eq_true, if_false]
        refine ⟨ih.1, fun ⟨p, hp1, hp2⟩ => ih.2 ?_⟩
        rcases List.mem_cons.mp hp1 with rfl | hp1
        · rw [h2] at hp2; cases hp2
        · exact ⟨p, hp1, hp2⟩
      · simp
  have := hlines ((splitLines data).flatMap pieces)
  refine ⟨this.1, fun ⟨l, h1, p, h2, h3⟩ => this.2 ⟨p, List.mem_flatMap.mpr ⟨l, h1, h2⟩, h3⟩⟩

/-- One such line is enough to get there. -/
example : ((St.new 5).text ['$', 'A', '9', '\n']).1.prev = ['$', 'A', '9'] ∧ ∀ k : Cmd, ['$', 'A', '9'].take 3 ≠ k.chars := by
  refine ⟨by decide +kernel, fun k => by cases k <;> decide⟩

/-- Two exchanges, the first on one line behind a prompt, the second on two lines cut into two frames. -/
example : ∃ fs : List (List (Row × Eol)), (∀ f ∈ fs, ∀ r ∈ f, r.1.Ok)
    ∧ fs.flatten.flatMap (·.1.messages) = [(⟨.setOutlet, [' ', '1', ' ', '1'], true, []⟩ : Exch),
        ⟨.outletStatus, [], true, [['0', '0', '0', '0', '1'], ['x']]⟩].flatMap (fun x => [x.echo, x.reply])
    ∧ ((St.new 5).frames (fs.map render)).1.outlets = [some true, some false, some false, some false, some false] := by
  refine ⟨[[(.msgs ['>'] [['3', ' ', '1', ' ', '1'], ['0']], .crlf), (.noise ['>'], .lf), (.msgs [] [['5']], .crlf)],
    [(.noise [], .crlf), (.msgs [] [['0', ',', '0', '0', '0', '0', '1', ',', 'x']], .crlf)]], ?_, ?_, by decide +kernel⟩
  · intro f hf r hr
    simp only [List.mem_cons, List.not_mem_nil, or_false] at hf
    rcases hf with rfl | rfl <;> simp only [List.mem_cons, List.not_mem_nil, or_false] at hr
    · rcases hr with rfl | rfl | rfl <;> simp [Row.Ok] <;> decide
    · rcases hr with rfl | rfl <;> simp [Row.Ok] <;> decide
  · decide

/-- A command, its answer, and its end. -/
example : ∃ ops : List Op, (∀ op ∈ ops, op.Calm 2)
    ∧ (((Sess.new 2).run 2 ops).step 2 .wake).2 = .done true := by
  refine ⟨[.set 1 true, .answer ['0', '1']], ?_, by decide +kernel⟩
  intro op hop
  simp only [List.mem_cons, List.not_mem_nil, or_false] at hop
  rcases hop with rfl | rfl
  · trivial
  · exact ⟨rfl, by simp⟩

/-- A reply with too many states, and states that make the stale answer wrong. -/
example : 2 < ['0', '1', '0'].length ∧ Full 2 ['0', '1'] ∧ ['0', '1'][2 - (2 : Int).toNat]? ≠ some (if true then '1' else '0') := by
  refine ⟨by decide, ⟨rfl, by simp⟩, by decide⟩

end Verif.Np05b
