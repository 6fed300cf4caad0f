import Verif.Tftp.Packet
/-!
C41: which files a TFTP request can name (`get_path`, endpoint.py 277–279).
-/
namespace Verif.Tftp

/-- A file or directory name. -/
abbrev Name := List Char

/-- A `PurePosixPath`: absolute or not, and its components. -/
structure PPath where
  abs : Bool
  parts : List Name
  deriving DecidableEq

/-- `Path(text)`: components between slashes without empty ones and ".", ".." kept (pathlib). The
special meaning of exactly two leading slashes is left out; it does not change the location. -/
def PPath.parse (s : List Char) : PPath where
  abs := s.head? == some '/'
  parts := (splitOn '/' s).filter (fun p => p != [] && p != ['.'])

/-- `joinpath`: an absolute right side replaces the left. -/
def PPath.join (a b : PPath) : PPath := if b.abs then b else ⟨a.abs, a.parts ++ b.parts⟩

/-- `get_path`, endpoint.py 277–279. -/
def getPath (root : PPath) (filename : List Char) : PPath := root.join (PPath.parse filename)

/-- How the system walks a path from a directory, without symbolic links: ".." goes up, staying at
the top when already there. -/
def walk (start : List Name) (parts : List Name) : List Name :=
  parts.foldl (fun d c => if c = ['.', '.'] then d.dropLast else d ++ [c]) start

/-- The place a path names, given the working directory. -/
def PPath.locate (cwd : List Name) (p : PPath) : List Name :=
  walk (if p.abs then [] else cwd) p.parts

/-- Proper names of directory entries. -/
def Proper (n : Name) : Prop :=
  n ≠ [] ∧ n ≠ ['.'] ∧ n ≠ ['.', '.'] ∧ '/' ∉ n ∧ '\x00' ∉ n

theorem walk_proper (d : List Name) (ps : List Name) (h : ∀ p ∈ ps, p ≠ ['.', '.']) :
    walk d ps = d ++ ps := by
  induction ps generalizing d with
  | nil => simp [walk]
  | cons p ps ih =>
    have h1 : walk d (p :: ps) = walk (d ++ [p]) ps := by
      simp [walk, h p List.mem_cons_self]
    rw [h1, ih _ (fun q hq => h q (List.mem_cons_of_mem _ hq))]
    simp

theorem walk_append (d a b : List Name) : walk d (a ++ b) = walk (walk d a) b := by
  simp [walk]

theorem walk_up (d : List Name) (n : Nat) :
    walk d (List.replicate n ['.', '.']) = d.take (d.length - n) := by
  induction n generalizing d with
  | zero => simp [walk]
  | succ n ih =>
    have h1 : walk d (List.replicate (n + 1) ['.', '.']) =
        walk d.dropLast (List.replicate n ['.', '.']) := by
      simp [walk, List.replicate_succ]
    rw [h1, ih, List.length_dropLast, List.dropLast_eq_take, List.take_take]
    congr 1
    omega

theorem locate_join (cwd : List Name) (root f : PPath) (h : f.abs = false) :
    (root.join f).locate cwd = walk (root.locate cwd) f.parts := by
  simp [PPath.join, h, PPath.locate, walk_append]

/-- Names that never go above where they start: reading from the left there are always at least as
many proper components as "..". -/
def Stays : Nat → List Name → Prop
  | _, [] => True
  | n, p :: ps => if p = ['.', '.'] then 0 < n ∧ Stays (n - 1) ps else Stays (n + 1) ps

theorem walk_stays (d t : List Name) (ps : List Name) (h : Stays t.length ps) :
    d <+: walk (d ++ t) ps := by
  induction ps generalizing t with
  | nil => exact ⟨t, rfl⟩
  | cons p ps ih =>
    unfold Stays at h
    by_cases hp : p = ['.', '.']
    · rw [if_pos hp] at h
      have h1 : walk (d ++ t) (p :: ps) = walk (d ++ t.dropLast) ps := by
        have hne : t ≠ [] := by intro e; rw [e] at h; simp at h
        simp [walk, hp, List.dropLast_append_of_ne_nil hne]
      rw [h1]
      exact ih t.dropLast (by rw [List.length_dropLast]; exact h.2)
    · rw [if_neg hp] at h
      have h1 : walk (d ++ t) (p :: ps) = walk (d ++ (t ++ [p])) ps := by
        simp [walk, hp]
      rw [h1]
      exact ih (t ++ [p]) (by simpa using h)

/-- C41. Relative names whose ".." components never outnumber the components before them lead
inside the served directory, for every root and working directory. -/
theorem C41_inside_partial (cwd : List Name) (root : PPath) (filename : List Char)
    (hrel : filename.head? ≠ some '/') (hs : Stays 0 (PPath.parse filename).parts) :
    root.locate cwd <+: (getPath root filename).locate cwd := by
  have ha : (PPath.parse filename).abs = false := by simp [PPath.parse, hrel]
  rw [getPath, locate_join _ _ _ ha]
  have := walk_stays (root.locate cwd) [] _ hs
  simpa using this

/-- C41. In particular names without ".." give the directory followed by the name's components. -/
theorem C41_plain_partial (cwd : List Name) (root : PPath) (filename : List Char)
    (hrel : filename.head? ≠ some '/') (hd : ∀ p ∈ splitOn '/' filename, p ≠ ['.', '.']) :
    (getPath root filename).locate cwd = root.locate cwd ++ (PPath.parse filename).parts := by
  have ha : (PPath.parse filename).abs = false := by simp [PPath.parse, hrel]
  rw [getPath, locate_join _ _ _ ha]
  refine walk_proper _ _ ?_
  intro p hp
  exact hd p (List.mem_filter.mp hp).1

theorem parse_join (p : Name) (ps : List Name) (h : ∀ q ∈ p :: ps, q ≠ [] ∧ q ≠ ['.'] ∧ '/' ∉ q) :
    (PPath.parse (joinWith '/' (p :: ps))).parts = p :: ps := by
  unfold PPath.parse
  simp only
  rw [splitOn_joinWith '/' p ps (fun q hq => (h q hq).2.2)]
  rw [List.filter_eq_self]
  intro q hq
  have := h q hq
  simp [this.1, this.2.1]

theorem nul_not_mem_join (ps : List Name) (h : ∀ q ∈ ps, '\x00' ∉ q) : '\x00' ∉ joinWith '/' ps := by
  induction ps with
  | nil => simp [joinWith]
  | cons p ps ih =>
    cases ps with
    | nil => simpa [joinWith] using h
    | cons q qs =>
      rw [joinWith]
      intro hm
      rcases List.mem_append.mp hm with hm | hm
      · exact h p List.mem_cons_self hm
      · rcases List.mem_cons.mp hm with hm | hm
        · exact absurd hm (by decide)
        · exact ih (fun r hr => h r (List.mem_cons_of_mem _ hr)) hm

/-- The request a client sends for a name reaches the server as that name. -/
def Asks (datagram : Bytes) (root : PPath) (cwd target : List Name) : Prop :=
  ∃ f m, decode datagram = .ok (some (.rrq f m)) ∧ (getPath root f).locate cwd = target

/-- C41 in full fails: for every served directory and every place in the file system there is a
request, with an absolute name, that reaches it. -/
theorem C41_absolute_fails (root : PPath) (cwd : List Name) (p : Name) (ps : List Name)
    (h : ∀ q ∈ p :: ps, Proper q) : ∃ datagram, Asks datagram root cwd (p :: ps) := by
  have hnul : '\x00' ∉ ('/' :: joinWith '/' (p :: ps)) := by
    intro hm
    rcases List.mem_cons.mp hm with hm | hm
    · exact absurd hm (by decide)
    · exact nul_not_mem_join _ (fun q hq => (h q hq).2.2.2.2) hm
  have hr := (C40_request ('/' :: joinWith '/' (p :: ps)) [] hnul (by simp)).1
  cases he : (Packet.rrq ('/' :: joinWith '/' (p :: ps)) []).encode with
  | error e => rw [he] at hr; cases hr
  | ok b =>
    rw [he] at hr
    refine ⟨b, _, _, hr, ?_⟩
    have hj : getPath root ('/' :: joinWith '/' (p :: ps)) = ⟨true, p :: ps⟩ := by
      have h1 : (PPath.parse ('/' :: joinWith '/' (p :: ps))).abs = true := rfl
      unfold getPath PPath.join
      rw [h1]
      simp only [if_true]
      unfold PPath.parse
      rw [splitOn_cons_sep, splitOn_joinWith '/' p ps (fun q hq => (h q hq).2.2.2.1)]
      simp only [List.head?_cons, beq_self_eq_true, PPath.mk.injEq, true_and]
      rw [List.filter_cons_of_neg (by simp), List.filter_eq_self]
      intro q hq
      have := h q hq
      simp [this.1, this.2.1]
    rw [hj]
    simp only [PPath.locate, if_true]
    rw [walk_proper _ _ (fun q hq => (h q hq).2.2.1)]
    simp

/-- C41 in full fails for relative names as well: enough ".." components reach any place. -/
theorem C41_parent_fails (root : PPath) (cwd : List Name) (p : Name) (ps : List Name)
    (h : ∀ q ∈ p :: ps, Proper q) :
    ∃ f, f.head? ≠ some '/' ∧ (getPath root f).locate cwd = p :: ps := by
  generalize hn : (root.locate cwd).length + 1 = n
  have hsplit : ∃ x xs, List.replicate n ['.', '.'] ++ (p :: ps) = x :: xs ∧ x = ['.', '.'] := by
    subst hn
    exact ⟨['.', '.'], _, rfl, rfl⟩
  obtain ⟨x, xs, hx, hxx⟩ := hsplit
  have hall : ∀ q ∈ x :: xs, q ≠ [] ∧ q ≠ ['.'] ∧ '/' ∉ q := by
    intro q hq
    rw [← hx] at hq
    rcases List.mem_append.mp hq with hq | hq
    · rw [List.eq_of_mem_replicate hq]; decide
    · have := h q hq; exact ⟨this.1, this.2.1, this.2.2.2.1⟩
  have hhead : (joinWith '/' (x :: xs)).head? ≠ some '/' := by
    subst hxx
    cases xs <;> simp [joinWith]
  refine ⟨joinWith '/' (x :: xs), hhead, ?_⟩
  have ha : (PPath.parse (joinWith '/' (x :: xs))).abs = false := by simp [PPath.parse, hhead]
  rw [getPath, locate_join _ _ _ ha, parse_join x xs hall, ← hx, walk_append, walk_up,
    walk_proper _ _ (fun q hq => (h q hq).2.2.1)]
  have : (root.locate cwd).length - n = 0 := by omega
  rw [this]
  simp

/-- The hypotheses are met: a plain name, a name with inner "..", and an escaping one. -/
example :
    (getPath ⟨true, ["srv".toList]⟩ "a/../b".toList).locate [] = ["srv".toList, "b".toList] ∧
    (getPath ⟨false, ["srv".toList]⟩ "./x//y".toList).locate ["home".toList] =
      ["home".toList, "srv".toList, "x".toList, "y".toList] ∧
    (getPath ⟨true, ["srv".toList]⟩ "../../etc/passwd".toList).locate [] = ["etc".toList, "passwd".toList] ∧
    (getPath ⟨true, ["srv".toList]⟩ "/etc/passwd".toList).locate [] = ["etc".toList, "passwd".toList] := by
  decide +kernel

example : Stays 0 (PPath.parse "a/../b".toList).parts := by
  have : (PPath.parse "a/../b".toList).parts = ["a".toList, "..".toList, "b".toList] := by
    decide +kernel
  rw [this]
  simp [Stays]

end Verif.Tftp
