import Verif.Server.Files
/-!
C70: theorems about the web server's answers.
-/
namespace Verif.Server.Files
open Verif Verif.Tftp Verif.Http

theorem mdName_ne (n : Name) : mdName n ≠ ['.', '.'] := by
  intro e
  have h := congrArg List.reverse e
  simp [mdName] at h

theorem stays_last (n : Nat) (ps : List Name) (p p' : Name) (h : Stays n (ps ++ [p])) (hp : p' ≠ ['.', '.']) :
    Stays n (ps ++ [p']) := by
  induction ps generalizing n with
  | nil => simp [Stays, hp]
  | cons x xs ih =>
    rw [List.cons_append, Stays] at h ⊢
    by_cases hx : x = ['.', '.']
    · rw [if_pos hx] at h ⊢
      exact ⟨h.1, ih _ h.2⟩
    · rw [if_neg hx] at h ⊢
      exact ih _ h

/-- The markdown candidate of a joined path replaces the request's own last component. -/
theorem mdOf_join (s f : PPath) (xs : List Name) (x : Name) (ha : f.abs = false) (hx : f.parts = xs ++ [x]) :
    mdOf (s.join f) = s.join ⟨false, xs ++ [mdName x]⟩ := by
  have h1 : s.join f = ⟨s.abs, s.parts ++ (xs ++ [x])⟩ := by simp [PPath.join, ha, hx]
  have h2 : (s.parts ++ (xs ++ [x])).getLast? = some x := by
    rw [← List.append_assoc, List.getLast?_concat]
  have h3 : (s.parts ++ (xs ++ [x])).dropLast = s.parts ++ xs := by
    rw [← List.append_assoc, List.dropLast_concat]
  rw [h1]
  unfold mdOf
  simp only [h2, h3]
  simp [PPath.join]

/-- The two file systems hold the same files inside every search directory. -/
def SameInside (S : Site) (fs fs' : Fs) : Prop :=
  ∀ s ∈ S.paths, ∀ loc, s.locate S.cwd <+: loc → fs.isFile loc = fs'.isFile loc ∧ fs.read loc = fs'.read loc

theorem tryFile_inside (S : Site) (fs fs' : Fs) (rest : List Char) (hrel : rest.head? ≠ some '/')
    (hn : (PPath.parse rest).parts ≠ []) (hs : Stays 0 (PPath.parse rest).parts) (l : List PPath)
    (h : ∀ s ∈ l, ∀ loc, s.locate S.cwd <+: loc → fs.isFile loc = fs'.isFile loc ∧ fs.read loc = fs'.read loc) :
    tryFile S fs rest l = tryFile S fs' rest l := by
  have ha : (PPath.parse rest).abs = false := by simp [PPath.parse, hrel]
  obtain ⟨xs, x, hx⟩ : ∃ xs x, (PPath.parse rest).parts = xs ++ [x] := by
    rcases List.eq_nil_or_concat (PPath.parse rest).parts with h0 | ⟨xs, x, h0⟩
    · exact absurd h0 hn
    · exact ⟨xs, x, by simpa using h0⟩
  induction l with
  | nil => rfl
  | cons s ss ih =>
    have h1 : s.locate S.cwd <+: (s.join (PPath.parse rest)).locate S.cwd := by
      rw [locate_join _ _ _ ha]
      simpa using walk_stays (s.locate S.cwd) [] _ hs
    have h2 : s.locate S.cwd <+: (mdOf (s.join (PPath.parse rest))).locate S.cwd := by
      rw [mdOf_join _ _ xs x ha hx, locate_join _ _ _ rfl]
      rw [hx] at hs
      simpa using walk_stays (s.locate S.cwd) [] _ (stays_last 0 xs x _ hs (mdName_ne x))
    have e1 := h s List.mem_cons_self _ h1
    have e2 := h s List.mem_cons_self _ h2
    unfold tryFile
    simp only [e1.1, e1.2, e2.1, e2.2, ih (fun q hq => h q (List.mem_cons_of_mem _ hq))]

/-- C70. A request whose path has a name, does not start with two slashes and never goes above its
start is answered from the search directories only: the answer is the same on any two file systems
that agree inside them. -/
theorem C70_inside_partial (S : Site) (fs fs' : Fs) (t : Target) (rest : List Char) (q : Option (List Char))
    (ht : t.form = .origin ('/' :: rest) q) (hrel : rest.head? ≠ some '/')
    (hn : (PPath.parse rest).parts ≠ []) (hs : Stays 0 (PPath.parse rest).parts)
    (h : SameInside S fs fs') : get S fs t = get S fs' t := by
  unfold get
  rw [ht]
  simp only [List.tail_cons, tryFile_inside S fs fs' rest hrel hn hs S.paths h]

theorem make_get (path : List Char) (h : '?' ∉ path) :
    Target.make .get ('/' :: path) = .ok ⟨'/' :: path, .origin ('/' :: path) none⟩ := by
  have h' : '?' ∉ '/' :: path := by
    intro hm
    rcases List.mem_cons.mp hm with e | e
    · exact absurd e (by decide)
    · exact h e
  unfold Target.make
  rw [if_neg (by simp), if_neg (by simp), if_pos (by rfl), splitOn_none '?' _ h']

theorem mem_join {c : Char} (sep : Char) (ps : List Name) (hc : c ≠ sep) (h : ∀ q ∈ ps, c ∉ q) :
    c ∉ joinWith sep ps := by
  induction ps with
  | nil => simp [joinWith]
  | cons p ps ih =>
    cases ps with
    | nil => simpa [joinWith] using h
    | cons q qs =>
      rw [joinWith]
      intro hm
      rcases List.mem_append.mp hm with hm | hm
      · exact h p List.mem_cons_self hm
      · rcases List.mem_cons.mp hm with hm | hm
        · exact hc hm
        · exact ih (fun r hr => h r (List.mem_cons_of_mem _ hr)) hm

/-- What holds of a file that would be served as it is: it exists, no markdown file stands beside it
and its type has no encoding. -/
structure Served (S : Site) (fs : Fs) (c : PPath) : Prop where
  file : fs.isFile (c.locate S.cwd) = true
  md : fs.isFile ((mdOf c).locate S.cwd) = false
  plain : (S.guess c).2 = none

theorem tryFile_served (S : Site) (fs : Fs) (rest : List Char) (s : PPath) (ss : List PPath)
    (h : Served S fs (s.join (PPath.parse rest))) :
    tryFile S fs rest (s :: ss) = .ok (some (.data (fs.read ((s.join (PPath.parse rest)).locate S.cwd))
      (S.guess (s.join (PPath.parse rest))).1)) := by
  unfold tryFile
  dsimp only
  rw [if_neg (by rw [h.md]; simp), if_pos h.file]
  rcases hg : S.guess (s.join (PPath.parse rest)) with ⟨m, _ | e⟩
  · rfl
  · have := h.plain
    rw [hg] at this
    cases this

theorem tryFile_skip (S : Site) (fs : Fs) (rest : List Char) (before after : List PPath)
    (h : ∀ s ∈ before, fs.isFile ((s.join (PPath.parse rest)).locate S.cwd) = false ∧
      fs.isFile ((mdOf (s.join (PPath.parse rest))).locate S.cwd) = false) :
    tryFile S fs rest (before ++ after) = tryFile S fs rest after := by
  induction before with
  | nil => rfl
  | cons s ss ih =>
    have e := h s List.mem_cons_self
    rw [List.cons_append]
    conv => lhs; unfold tryFile
    dsimp only
    rw [if_neg (by rw [e.2]; simp), if_neg (by rw [e.1]; simp)]
    exact ih (fun q hq => h q (List.mem_cons_of_mem _ hq))

/-- C70. Every plain file inside a search directory is served under its own path, with its exact
contents and type, even when it is empty and even when a redirect, an application or the "json" part
would also match; earlier search directories must not have it. -/
theorem C70_serves_partial (S : Site) (fs : Fs) (p : Name) (ps : List Name) (before after : List PPath) (s : PPath)
    (hp : ∀ q ∈ p :: ps, Proper q ∧ '?' ∉ q) (hfav : ¬ favName <+: '/' :: joinWith '/' (p :: ps))
    (hS : S.paths = before ++ s :: after)
    (hb : ∀ b ∈ before, fs.isFile (b.locate S.cwd ++ p :: ps) = false ∧
      fs.isFile ((mdOf ⟨b.abs, b.parts ++ p :: ps⟩).locate S.cwd) = false)
    (hserved : Served S fs ⟨s.abs, s.parts ++ p :: ps⟩) :
    ∃ t, Target.make .get ('/' :: joinWith '/' (p :: ps)) = .ok t ∧
      get S fs t = .ok (.data (fs.read (s.locate S.cwd ++ p :: ps)) (S.guess ⟨s.abs, s.parts ++ p :: ps⟩).1) := by
  refine ⟨_, make_get _ (mem_join '/' _ (by decide) (fun q hq => (hp q hq).2)), ?_⟩
  have hhead : (joinWith '/' (p :: ps)).head? ≠ some '/' := by
    have h0 := (hp p List.mem_cons_self).1
    intro e
    cases p with
    | nil => exact h0.1 rfl
    | cons c cs =>
      have : c = '/' := by
        cases ps <;> simpa [joinWith] using e
      exact h0.2.2.2.1 (by rw [this]; exact List.mem_cons_self)
  have ha : (PPath.parse (joinWith '/' (p :: ps))).abs = false := by simp [PPath.parse, hhead]
  have hparts := parse_join p ps (fun q hq => ⟨(hp q hq).1.1, (hp q hq).1.2.1, (hp q hq).1.2.2.2.1⟩)
  have hj : ∀ b : PPath, b.join (PPath.parse (joinWith '/' (p :: ps))) = ⟨b.abs, b.parts ++ p :: ps⟩ := by
    intro b
    simp [PPath.join, ha, hparts]
  have hl : ∀ b : PPath, (PPath.mk b.abs (b.parts ++ p :: ps)).locate S.cwd = b.locate S.cwd ++ p :: ps := by
    intro b
    rw [← hj b, locate_join _ _ _ ha, hparts, walk_proper _ _ (fun q hq => (hp q hq).1.2.2.1)]
  unfold get
  dsimp only
  rw [if_neg hfav, List.tail_cons, hS, tryFile_skip S fs _ before _ (by
    intro b hb'
    rw [hj b, hl b]
    exact hb b hb')]
  rw [tryFile_served S fs _ s after (by rw [hj]; exact hserved)]
  simp only [hj, hl]

/-- C70 in full fails: with any search directories at all, every plain file on the machine is served
when its place is asked for after a second slash. -/
theorem C70_absolute_fails (S : Site) (fs : Fs) (p : Name) (ps : List Name)
    (hp : ∀ q ∈ p :: ps, Proper q ∧ '?' ∉ q) (hS : S.paths ≠ [])
    (hserved : Served S fs ⟨true, p :: ps⟩) :
    ∃ t, Target.make .get ('/' :: '/' :: joinWith '/' (p :: ps)) = .ok t ∧
      get S fs t = .ok (.data (fs.read (p :: ps)) (S.guess ⟨true, p :: ps⟩).1) := by
  refine ⟨_, make_get _ ?_, ?_⟩
  · intro hm
    rcases List.mem_cons.mp hm with e | e
    · exact absurd e (by decide)
    · exact mem_join '/' _ (by decide) (fun q hq => (hp q hq).2) e
  have hparse : PPath.parse ('/' :: joinWith '/' (p :: ps)) = ⟨true, p :: ps⟩ := by
    unfold PPath.parse
    rw [splitOn_cons_sep, splitOn_joinWith '/' p ps (fun q hq => (hp q hq).1.2.2.2.1)]
    simp only [List.head?_cons, beq_self_eq_true, PPath.mk.injEq, true_and]
    rw [List.filter_cons_of_neg (by simp), List.filter_eq_self]
    intro q hq
    have := (hp q hq).1
    simp [this.1, this.2.1]
  have hl : (PPath.mk true (p :: ps)).locate S.cwd = p :: ps := by
    simp only [PPath.locate, if_true]
    rw [walk_proper _ _ (fun q hq => (hp q hq).1.2.2.1)]
    rfl
  have hfav : ¬ favName <+: '/' :: '/' :: joinWith '/' (p :: ps) := by
    rw [show favName = '/' :: 'f' :: "avicon".toList from by decide, List.cons_prefix_cons, List.cons_prefix_cons]
    intro h
    exact absurd h.2.1 (by decide)
  have hj : ∀ b : PPath, b.join (PPath.parse ('/' :: joinWith '/' (p :: ps))) = ⟨true, p :: ps⟩ := by
    intro b
    rw [hparse]
    rfl
  unfold get
  dsimp only
  rw [if_neg hfav, List.tail_cons]
  cases hps : S.paths with
  | nil => exact absurd hps hS
  | cons s ss =>
    rw [tryFile_served S fs _ s ss (by rw [hj]; exact hserved)]
    simp only [hj, hl]

/-- C70 in full fails: ".." components lead out of the search directory to any plain file as well. -/
theorem C70_parent_fails (S : Site) (fs : Fs) (s : PPath) (ss : List PPath) (p : Name) (ps : List Name)
    (hS : S.paths = s :: ss) (hp : ∀ q ∈ p :: ps, Proper q ∧ '?' ∉ q)
    (hserved : Served S fs (s.join ⟨false, List.replicate (s.locate S.cwd).length ['.', '.'] ++ p :: ps⟩))
    (hne : s.locate S.cwd ≠ []) :
    ∃ t, Target.make .get
        ('/' :: joinWith '/' (List.replicate (s.locate S.cwd).length ['.', '.'] ++ p :: ps)) = .ok t ∧
      ∃ m, get S fs t = .ok (.data (fs.read (p :: ps)) m) := by
  generalize hn : (s.locate S.cwd).length = n at *
  have hn0 : n ≠ 0 := by
    intro e
    exact hne (List.length_eq_zero_iff.mp (hn.trans e))
  obtain ⟨k, rfl⟩ := Nat.exists_eq_succ_of_ne_zero hn0
  have hx : List.replicate (k + 1) ['.', '.'] ++ p :: ps =
      ['.', '.'] :: (List.replicate k ['.', '.'] ++ p :: ps) := by
    rw [List.replicate_succ, List.cons_append]
  have hall : ∀ q ∈ List.replicate (k + 1) ['.', '.'] ++ p :: ps, q ≠ [] ∧ q ≠ ['.'] ∧ '/' ∉ q ∧ '?' ∉ q := by
    intro q hq
    rcases List.mem_append.mp hq with hq | hq
    · rw [List.eq_of_mem_replicate hq]; decide
    · have := hp q hq; exact ⟨this.1.1, this.1.2.1, this.1.2.2.2.1, this.2⟩
  refine ⟨_, make_get _ (mem_join '/' _ (by decide) (fun q hq => (hall q hq).2.2.2)), ?_⟩
  have hparts : (PPath.parse (joinWith '/' (List.replicate (k + 1) ['.', '.'] ++ p :: ps))).parts =
      List.replicate (k + 1) ['.', '.'] ++ p :: ps := by
    rw [hx]
    exact parse_join _ _ (by
      rw [← hx]
      exact fun q hq => ⟨(hall q hq).1, (hall q hq).2.1, (hall q hq).2.2.1⟩)
  have hhead : (joinWith '/' (List.replicate (k + 1) ['.', '.'] ++ p :: ps)).head? ≠ some '/' := by
    rw [hx]
    cases hr : List.replicate k ['.', '.'] ++ p :: ps <;> simp [joinWith]
  have ha : (PPath.parse (joinWith '/' (List.replicate (k + 1) ['.', '.'] ++ p :: ps))).abs = false := by
    simp [PPath.parse, hhead]
  have hj : s.join (PPath.parse (joinWith '/' (List.replicate (k + 1) ['.', '.'] ++ p :: ps))) =
      s.join ⟨false, List.replicate (k + 1) ['.', '.'] ++ p :: ps⟩ := by
    simp [PPath.join, ha, hparts]
  have hl : (s.join ⟨false, List.replicate (k + 1) ['.', '.'] ++ p :: ps⟩).locate S.cwd = p :: ps := by
    rw [locate_join _ _ _ rfl, walk_append, walk_up, hn, walk_proper _ _ (fun q hq => (hp q hq).1.2.2.1)]
    simp
  have hfav : ¬ favName <+: '/' :: joinWith '/' (List.replicate (k + 1) ['.', '.'] ++ p :: ps) := by
    rw [hx, show favName = '/' :: 'f' :: "avicon".toList from by decide]
    cases hr : List.replicate k ['.', '.'] ++ p :: ps with
    | nil => simp [joinWith]
    | cons a b => simp [joinWith]
  refine ⟨(S.guess (s.join ⟨false, List.replicate (k + 1) ['.', '.'] ++ p :: ps⟩)).1, ?_⟩
  unfold get
  dsimp only
  rw [if_neg hfav, List.tail_cons, hS, tryFile_served S fs _ s ss (by rw [hj]; exact hserved)]
  simp only [hj, hl]

/-- C70 in full fails: the bare path "/" is answered with the markdown file beside the first search
directory, outside of it, when there is one. -/
theorem C70_sibling_fails (S : Site) (fs : Fs) (a : Bool) (dir : List Name) (n : Name) (ss : List PPath)
    (page : List Char) (hS : S.paths = ⟨a, dir ++ [n]⟩ :: ss)
    (hfile : fs.isFile ((PPath.mk a (dir ++ [mdName n])).locate S.cwd) = true)
    (hr : S.render (fs.read ((PPath.mk a (dir ++ [mdName n])).locate S.cwd)) = .ok page) :
    ∃ t, Target.make .get ['/'] = .ok t ∧ get S fs t = .ok (.data page (some html)) := by
  refine ⟨_, make_get [] (by simp), ?_⟩
  have hj : (PPath.mk a (dir ++ [n])).join (PPath.parse []) = ⟨a, dir ++ [n]⟩ := by
    have : PPath.parse [] = ⟨false, []⟩ := by decide +kernel
    rw [this]
    simp [PPath.join]
  have hm : mdOf ⟨a, dir ++ [n]⟩ = ⟨a, dir ++ [mdName n]⟩ := by
    unfold mdOf
    simp
  have hfav : ¬ favName <+: ['/'] := by decide +kernel
  unfold get
  dsimp only
  rw [if_neg hfav, List.tail_cons, hS]
  unfold tryFile
  dsimp only
  rw [hj, hm, if_pos ⟨by simp, hfile⟩, hr]

theorem ext_of (base e : List Char) (he : '.' ∉ e) : ext (base ++ '.' :: e) = e := by
  unfold ext
  rw [List.reverse_append, List.reverse_cons, List.append_assoc, List.takeWhile_append_of_pos]
  · simp
  · intro c hc
    have : c ≠ '.' := fun h => he (by rw [← h]; simpa using hc)
    simpa using this

/-- The suffix of a name with a proper one is replaced by ".md". -/
theorem mdName_of (base e : List Char) (hb : base ≠ []) (hne : e ≠ []) (he : '.' ∉ e) :
    mdName (base ++ '.' :: e) = base ++ ".md".toList := by
  have h1 : ext (base ++ '.' :: e) = e := ext_of base e he
  have h2 : hasSuffix (base ++ '.' :: e) = true := by
    have := List.length_pos_iff.mpr hb
    simp [hasSuffix, h1, hne]
    omega
  have h3 : (base ++ '.' :: e).take ((base ++ '.' :: e).length - (ext (base ++ '.' :: e)).length - 1) = base := by
    rw [h1]
    have : (base ++ '.' :: e).length - e.length - 1 = base.length := by simp; omega
    rw [this]
    simp
  unfold mdName
  rw [if_pos h2, h3]
  rfl

/-- C70. "Each file is served under its own name" fails: where "name.md" exists, every request for
"name.<anything>" in that directory is answered with the rendered markdown, although the file asked
for exists too. -/
theorem C70_shadow_fails (S : Site) (fs : Fs) (s : PPath) (ss : List PPath) (base e page : List Char)
    (hS : S.paths = s :: ss) (hb : base ≠ []) (hne : e ≠ []) (he : '.' ∉ e)
    (hp : '/' ∉ base ∧ '/' ∉ e ∧ '?' ∉ base ∧ '?' ∉ e) 
    (hfav : ¬ "/favicon".toList <+: '/' :: (base ++ '.' :: e))
    (hmd : fs.isFile (s.locate S.cwd ++ [base ++ ".md".toList]) = true)
    (hr : S.render (fs.read (s.locate S.cwd ++ [base ++ ".md".toList])) = .ok page) :
    ∃ t, Target.make .get ('/' :: (base ++ '.' :: e)) = .ok t ∧
      get S fs t = .ok (.data page (some html)) := by
  refine ⟨_, make_get _ (by simp [hp.2.2.1, hp.2.2.2]), ?_⟩
  have hslash : '/' ∉ base ++ '.' :: e := by simp [hp.1, hp.2.1]
  have hd : base ++ '.' :: e ≠ ['.'] := by
    intro h
    have h1 := congrArg List.length h
    have h2 := List.length_pos_iff.mpr hb
    simp at h1
    omega
  have hpn : PPath.parse (base ++ '.' :: e) = ⟨false, [base ++ '.' :: e]⟩ := by
    unfold PPath.parse
    rw [splitOn_none '/' _ hslash]
    have h1 : ((base ++ '.' :: e).head? == some '/') = false := by
      cases base with
      | nil => exact absurd rfl hb
      | cons c cs =>
        have : c ≠ '/' := fun h => hp.1 (by simp [h])
        simp [this]
    rw [h1]
    simp [hd, hb]
  have hm := mdOf_join s (PPath.parse (base ++ '.' :: e)) [] (base ++ '.' :: e) (by rw [hpn]) (by rw [hpn]; rfl)
  rw [mdName_of base e hb hne he] at hm
  have hl : (mdOf (s.join (PPath.parse (base ++ '.' :: e)))).locate S.cwd =
      s.locate S.cwd ++ [base ++ ".md".toList] := by
    rw [hm, locate_join _ _ _ rfl]
    have : base ++ ".md".toList ≠ ['.', '.'] := by
      intro h
      exact absurd (congrArg List.length h) (by simp)
    rw [List.nil_append, walk_proper _ _ (by simpa using this)]
  unfold get
  dsimp only
  rw [if_neg (show ¬ favName <+: '/' :: (base ++ '.' :: e) from hfav), List.tail_cons, hS]
  unfold tryFile
  dsimp only
  have hne' : (s.join (PPath.parse (base ++ '.' :: e))).parts ≠ [] := by
    simp [hpn, PPath.join]
  rw [hl, if_pos ⟨hne', hmd⟩, hr]

/-- C70 in full fails: a file whose type has an encoding (a name ending in ".gz", for instance) is
never served, the handler raises instead. -/
theorem C70_encoding_fails (S : Site) (fs : Fs) (s : PPath) (ss : List PPath) (path : List Char)
    (q : Option (List Char)) (raw enc : List Char) (hS : S.paths = s :: ss) (hfav : ¬ favName <+: path)
    (hfile : fs.isFile ((s.join (PPath.parse path.tail)).locate S.cwd) = true)
    (hmd : fs.isFile ((mdOf (s.join (PPath.parse path.tail))).locate S.cwd) = false)
    (henc : (S.guess (s.join (PPath.parse path.tail))).2 = some enc) :
    get S fs ⟨raw, .origin path q⟩ = .error .assertion := by
  unfold get
  dsimp only
  rw [if_neg hfav, hS]
  unfold tryFile
  dsimp only
  rw [if_neg (by rw [hmd]; simp), if_pos hfile]
  rcases hg : S.guess (s.join (PPath.parse path.tail)) with ⟨m, _ | e⟩
  · rw [hg] at henc
    cases henc
  · rfl

/-- C70 in full fails: no file under a path starting with "/favicon" can be reached. -/
theorem C70_favicon_fails (S : Site) (fs : Fs) (rest : List Char) (hq : '?' ∉ rest) :
    ∃ t, Target.make .get ("/favicon".toList ++ rest) = .ok t ∧
      get S fs t = .ok (.data S.favicon (some icon)) := by
  refine ⟨_, make_get ("favicon".toList ++ rest) ?_, ?_⟩
  · intro hm
    rcases List.mem_append.mp hm with h | h
    · revert h; decide
    · exact hq h
  unfold get
  dsimp only
  rw [if_pos ⟨rest, rfl⟩]

theorem tryFile_none (S : Site) (fs : Fs) (rest : List Char) (l : List PPath)
    (h : ∀ s ∈ l, fs.isFile ((s.join (PPath.parse rest)).locate S.cwd) = false ∧
      fs.isFile ((mdOf (s.join (PPath.parse rest))).locate S.cwd) = false) :
    tryFile S fs rest l = .ok none := by
  have := tryFile_skip S fs rest l [] h
  rw [List.append_nil] at this
  rw [this]
  rfl

/-- No search directory has the file or a markdown source for it. -/
def NoFile (S : Site) (fs : Fs) (path : List Char) : Prop :=
  ∀ s ∈ S.paths, fs.isFile ((s.join (PPath.parse path.tail)).locate S.cwd) = false ∧
    fs.isFile ((mdOf (s.join (PPath.parse path.tail))).locate S.cwd) = false

/-- C70. A path without a file is redirected as registered, before data and applications. After
adding a redirect every spelling of the source path (extra slashes inside or at the end, "." parts)
follows it. -/
theorem C70_redirect_partial (S S' : Site) (fs : Fs) (src dst path : List Char) (raw : List Char)
    (q : Option (List Char)) (hadd : addRedirect S src dst = .ok S') (hfav : ¬ favName <+: path)
    (hnf : NoFile S fs path) (hroot : path.head? = some '/') (htwo : path.tail.head? ≠ some '/')
    (hsrc : (keyOf src).1 = false) (hsame : (PPath.parse path).parts = (PPath.parse src).parts) :
    get S' fs ⟨raw, .origin path q⟩ = .ok (.redirect dst) := by
  unfold addRedirect at hadd
  dsimp only at hadd
  generalize hk : (if (PPath.parse src).abs = true then keyOf src else (false, ⟨true, (PPath.parse src).parts⟩)) = k at hadd
  have hkp : k = keyOf path := by
    have h1 : keyOf path = (false, ⟨true, (PPath.parse path).parts⟩) := by
      unfold keyOf
      have h2 : (path.tail.head? == some '/') = false := by simpa using htwo
      rw [h2]
      simp [PPath.parse, hroot]
    rw [h1, hsame, ← hk]
    by_cases ha : (PPath.parse src).abs = true
    · rw [if_pos ha]
      have h3 : (keyOf src).2 = PPath.parse src := rfl
      have h4 : PPath.parse src = ⟨true, (PPath.parse src).parts⟩ := by rw [← ha]
      rw [← h4, ← hsrc]
      rfl
    · rw [if_neg ha]
  split at hadd
  · cases hadd
  · cases hadd
    unfold get
    dsimp only
    have hnone : tryFile (⟨S.cwd, S.paths, dset S.redirects k dst, S.favicon, S.guess, S.render, S.json, S.apps⟩ : Site)
        fs path.tail S.paths = .ok none :=
      tryFile_none (⟨S.cwd, S.paths, dset S.redirects k dst, S.favicon, S.guess, S.render, S.json, S.apps⟩ : Site) fs _ _ hnf
    rw [if_neg hfav, hnone]
    dsimp only
    unfold tryRedirect
    dsimp only
    rw [← hkp, dget_dset_self]
    rfl

theorem orMissing_eq (content mime : List Char) :
    orMissing content mime = (match some (content, mime) with
      | some (c :: cs, mime) => .data (c :: cs) (some mime)
      | _ => .redirect "/404.html".toList) := by
  cases content with
  | nil => exact if_pos rfl
  | cons c cs => exact if_neg (by simp)

/-- C70. A path without file and redirect whose parts include "json" is answered with data, and
never by an application; any other by the application registered for it. When neither yields
anything the answer is a redirect to the 404 page. -/
theorem C70_fallback (S : Site) (fs : Fs) (path raw : List Char) (q : Option (List Char))
    (hfav : ¬ favName <+: path) (hnf : NoFile S fs path) (hred : dget S.redirects (keyOf path) = none) :
    get S fs ⟨raw, .origin path q⟩ = .ok
      (let content := if "json".toList ∈ (splitOn '/' path).tail then some (S.json path, jsonType)
        else (S.apps path).map (fun c => (c, html))
       match content with
       | some (c :: cs, mime) => .data (c :: cs) (some mime)
       | _ => .redirect "/404.html".toList) := by
  unfold get
  dsimp only
  rw [if_neg hfav, tryFile_none S fs _ _ hnf]
  dsimp only
  unfold tryRedirect
  rw [hred]
  dsimp only [Option.map_none]
  unfold hasPart
  by_cases hj : "json".toList ∈ (splitOn '/' path).tail
  · rw [if_pos (by simpa using hj), if_pos hj]
    exact congrArg _ (orMissing_eq _ _)
  · rw [if_neg (by simpa using hj), if_neg hj]
    cases S.apps path with
    | none => rfl
    | some c => exact congrArg _ (orMissing_eq _ _)

/-- C70. Targets that are not paths are always sent to the 404 page, on every file system. -/
theorem C70_other_forms (S : Site) (fs : Fs) (raw : List Char) (h : raw.head? ≠ some '/') :
    ∃ t, Target.make .get raw = .ok t ∧ get S fs t = .ok (.redirect "/404.html".toList) := by
  obtain ⟨f, hf, _, ho, _⟩ := C62_forms .get (by decide) raw
  refine ⟨_, hf, ?_⟩
  unfold get
  cases f with
  | origin p q => exact absurd (ho.mp ⟨p, q, rfl⟩) h
  | _ => rfl

/-- C70. POST: the first component names the environment and the others, joined by spaces, are the
command it is given. -/
theorem C70_post_partial (envs : List (List Char)) (env : List Char) (args : List (List Char))
    (henv : env ∈ envs) (hp : ∀ a ∈ env :: args, a ≠ [] ∧ a ≠ ['.'] ∧ '/' ∉ a ∧ '?' ∉ a) :
    ∃ t, Target.make .post ('/' :: joinWith '/' (env :: args)) = .ok t ∧
      post envs t = .command env (joinWith ' ' args) := by
  have hq : '?' ∉ '/' :: joinWith '/' (env :: args) := by
    intro hm
    rcases List.mem_cons.mp hm with e | e
    · exact absurd e (by decide)
    · exact mem_join '/' _ (by decide) (fun a ha => (hp a ha).2.2.2) e
  refine ⟨⟨'/' :: joinWith '/' (env :: args), .origin ('/' :: joinWith '/' (env :: args)) none⟩, ?_, ?_⟩
  · unfold Target.make
    rw [if_neg (by simp), if_neg (by simp), if_pos (by rfl), splitOn_none '?' _ hq]
  · have hparse : (PPath.parse ('/' :: joinWith '/' (env :: args))).parts = env :: args := by
      unfold PPath.parse
      dsimp only
      rw [splitOn_cons_sep, splitOn_joinWith '/' env args (fun a ha => (hp a ha).2.2.1)]
      rw [List.filter_cons_of_neg (by simp), List.filter_eq_self]
      intro a ha
      have := hp a ha
      simp [this.1, this.2.1]
    unfold post
    dsimp only
    rw [hparse]
    dsimp only
    rw [if_pos henv]

/-- C70 in full fails for POST: an empty or "." component never reaches the command, so a command
with such an argument runs as another one. -/
theorem C70_post_dropped_fails (envs : List (List Char)) (env a : List Char) (before after : List (List Char))
    (ha : a = [] ∨ a = ['.']) (hp : ∀ x ∈ env :: (before ++ after), '/' ∉ x) (raw raw' : List Char)
    (q : Option (List Char)) :
    post envs ⟨raw, .origin ('/' :: joinWith '/' (env :: (before ++ a :: after))) q⟩ =
      post envs ⟨raw', .origin ('/' :: joinWith '/' (env :: (before ++ after))) q⟩ := by
  have hsl : '/' ∉ a := by rcases ha with rfl | rfl <;> decide
  have h1 : ∀ x ∈ env :: (before ++ a :: after), '/' ∉ x := by
    intro x hx
    simp only [List.mem_cons, List.mem_append] at hx
    rcases hx with rfl | h | rfl | h
    · exact hp x (by simp)
    · exact hp x (by simp [h])
    · exact hsl
    · exact hp x (by simp [h])
  have : (PPath.parse ('/' :: joinWith '/' (env :: (before ++ a :: after)))).parts =
      (PPath.parse ('/' :: joinWith '/' (env :: (before ++ after)))).parts := by
    unfold PPath.parse
    dsimp only
    rw [splitOn_cons_sep, splitOn_cons_sep, splitOn_joinWith '/' _ _ h1, splitOn_joinWith '/' _ _ hp]
    simp only [List.filter_cons, List.filter_append]
    rcases ha with rfl | rfl <;> simp
  unfold post
  dsimp only
  rw [this]

/-- A site for the cases: two search directories, one redirect. -/
def demo : Site where
  cwd := ["home".toList]
  paths := [⟨true, ["srv".toList, "www".toList]⟩, ⟨true, ["usr".toList, "share".toList]⟩]
  redirects := [(keyOf "/old".toList, "/new".toList)]
  favicon := "ICO".toList
  guess := fun c => match c.parts.getLast? with
    | some n => if ext n = "gz".toList then (none, some "gzip".toList)
        else if ext n = "css".toList then (some "text/css".toList, none) else (none, none)
    | none => (none, none)
  render := fun s => .ok ("<p>".toList ++ s)
  json := fun _ => "{}".toList
  apps := fun p => if p = "/app.html".toList then some "app".toList else none

def demoFs : Fs where
  isFile := fun p => p ∈ [["srv".toList, "www".toList, "a.css".toList], ["etc".toList, "passwd".toList],
    ["srv".toList, "www.md".toList], ["usr".toList, "share".toList, "b.md".toList],
    ["usr".toList, "share".toList, "b.css".toList], ["srv".toList, "www".toList, "x.gz".toList]]
  read := fun p => joinWith '/' p

/-- The answer to a GET for a text. -/
def ask (raw : String) : Except PyErr Answer := (Target.make .get raw.toList).bind (get demo demoFs)

/-- Cases: a plain file, three ways out of the search directories, a markdown file in the place of
the stylesheet asked for, an encoded file, the icon, a redirect under another spelling, data, an
application and nothing. -/
theorem C70_cases :
    ask "/a.css?x" = .ok (.data "srv/www/a.css".toList (some "text/css".toList)) ∧
    ask "//etc/passwd" = .ok (.data "etc/passwd".toList none) ∧
    ask "/../../etc/passwd" = .ok (.data "etc/passwd".toList none) ∧
    ask "/" = .ok (.data "<p>srv/www.md".toList (some html)) ∧
    ask "/b.css" = .ok (.data "<p>usr/share/b.md".toList (some html)) ∧
    ask "/x.gz" = .error .assertion ∧
    ask "/favicons/a.css" = .ok (.data "ICO".toList (some icon)) ∧
    ask "/old/./" = .ok (.redirect "/new".toList) ∧
    ask "/x/json/y" = .ok (.data "{}".toList (some jsonType)) ∧
    ask "/app.html" = .ok (.data "app".toList (some html)) ∧
    ask "/none" = .ok (.redirect notFound) ∧
    ask "*" = .ok (.redirect notFound) := by
  refine ⟨?_, ?_, ?_, ?_, ?_, ?_, ?_, ?_, ?_, ?_, ?_, ?_⟩ <;> decide +kernel

/-- The hypotheses of the positive theorems are met by the first case, those of the failures by the
others. -/
example : Served demo demoFs ⟨true, ["srv".toList, "www".toList, "a.css".toList]⟩ ∧
    Served demo demoFs ⟨true, ["etc".toList, "passwd".toList]⟩ ∧
    Stays 0 (PPath.parse "a.css".toList).parts := by
  refine ⟨⟨by decide +kernel, by decide +kernel, by decide +kernel⟩,
    ⟨by decide +kernel, by decide +kernel, by decide +kernel⟩, ?_⟩
  have : (PPath.parse "a.css".toList).parts = ["a.css".toList] := by decide +kernel
  rw [this]
  simp [Stays]

example : mdName "a.tar.gz".toList = "a.tar.md".toList ∧ mdName ".x".toList = ".x.md".toList ∧
    mdName "y.".toList = "y..md".toList ∧ mdName "z".toList = "z.md".toList := by decide +kernel

end Verif.Server.Files
