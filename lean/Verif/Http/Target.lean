import Verif.Text
/-!
C62: `RequestTarget` (net/http/request_target.py).
-/
namespace Verif.Http
open Verif.Text

/-- `http.HTTPMethod`; a member's name is its value. -/
inductive Method where
  | connect | delete | get | head | options | patch | post | put | trace
  deriving DecidableEq

/-- The name of a method. -/
def Method.name : Method → List Char
  | .connect => "CONNECT".toList
  | .delete => "DELETE".toList
  | .get => "GET".toList
  | .head => "HEAD".toList
  | .options => "OPTIONS".toList
  | .patch => "PATCH".toList
  | .post => "POST".toList
  | .put => "PUT".toList
  | .trace => "TRACE".toList

/-- `http.HTTPMethod[name]`, common.py 18–23. -/
def Method.ofName (s : List Char) : Except PyErr Method :=
  match [Method.connect, .delete, .get, .head, .options, .patch, .post, .put, .trace].find? (fun m => m.name = s) with
  | some m => .ok m
  | none => .error .key

theorem ofName_name (m : Method) : Method.ofName m.name = .ok m := by cases m <;> decide +kernel

/-- The four forms of a target (the attributes set by the constructor). -/
inductive Form where
  | asterisk
  | authority (host : List Char) (port : Int)
  | origin (path : List Char) (query : Option (List Char))
  | absolute (text : List Char)
  deriving DecidableEq

/-- `RequestTarget`: the raw text and its form. -/
structure Target where
  raw : List Char
  form : Form
  deriving DecidableEq

/-- `RequestTarget.__init__`, request_target.py 15–52. Unpacking a split of the wrong length raises
`ValueError`. -/
def Target.make (m : Method) (raw : List Char) : Except PyErr Target :=
  if raw = ['*'] then .ok ⟨raw, .asterisk⟩
  else if m = .connect then
    match splitOn ':' raw with
    | [host, port] => (pyInt port).map (fun n => ⟨raw, .authority host n⟩)
    | _ => .error .value
  else if raw.head? = some '/' then
    match splitOn '?' raw with
    | [] => .error .index
    | [path] => .ok ⟨raw, .origin path none⟩
    | path :: query :: _ => .ok ⟨raw, .origin path (some query)⟩
  else .ok ⟨raw, .absolute raw⟩

/-- `path`, request_target.py 54–60. -/
def Target.path (t : Target) : Except PyErr (List Char) :=
  match t.form with
  | .origin p _ => .ok p
  | _ => .error .assertion

/-- C62. Every target of a request other than CONNECT is accepted, keeps its text, and has exactly
the form its shape says. -/
theorem C62_forms (m : Method) (hm : m ≠ .connect) (raw : List Char) :
    ∃ f, Target.make m raw = .ok ⟨raw, f⟩ ∧
      (f = .asterisk ↔ raw = ['*']) ∧
      ((∃ p q, f = .origin p q) ↔ raw.head? = some '/') ∧
      ((∃ t, f = .absolute t) ↔ raw ≠ ['*'] ∧ raw.head? ≠ some '/') ∧
      (∀ h p, f ≠ .authority h p) ∧ (∀ t, f = .absolute t → t = raw) := by
  unfold Target.make
  by_cases h1 : raw = ['*']
  · subst h1
    exact ⟨_, rfl, by simp, by simp, by simp, by simp, by simp⟩
  · rw [if_neg h1, if_neg hm]
    by_cases h2 : raw.head? = some '/'
    · rw [if_pos h2]
      cases hs : splitOn '?' raw with
      | nil => exact absurd hs (splitOn_ne_nil _ _)
      | cons p ps =>
        cases ps with
        | nil => exact ⟨_, rfl, by simp [h1], by simp [h2], by simp [h2], by simp, by simp⟩
        | cons q qs => exact ⟨_, rfl, by simp [h1], by simp [h2], by simp [h2], by simp, by simp⟩
    · rw [if_neg h2]
      exact ⟨_, rfl, by simp [h1], by simp [h2], by simp [h1, h2], by simp, by simp⟩

/-- C62. CONNECT: host and port of every authority come back. -/
theorem C62_authority (host : List Char) (port : Nat) (h : ':' ∉ host) :
    Target.make .connect (host ++ ':' :: showNat port) =
      .ok ⟨host ++ ':' :: showNat port, .authority host port⟩ := by
  have hp : ':' ∉ showNat port := fun hm => (digit_facts (showNat_digit hm)).2.2.2.2.2.2.1 rfl
  have hne : host ++ ':' :: showNat port ≠ ['*'] := by
    intro e
    have : ':' ∈ (['*'] : List Char) := by rw [← e]; simp
    simp at this
  unfold Target.make
  rw [if_neg hne, if_pos rfl, splitOn_append ':' host _ h, splitOn_none ':' _ hp]
  simp only [pyInt_showNat]
  rfl

/-- C62. CONNECT targets without exactly one colon are refused (other than "*"). -/
theorem C62_authority_refused (raw : List Char) (h1 : raw ≠ ['*']) (h2 : (splitOn ':' raw).length ≠ 2) :
    Target.make .connect raw = .error .value := by
  unfold Target.make
  rw [if_neg h1, if_pos rfl]
  split
  · rename_i a b hs; rw [hs] at h2; simp at h2
  · rfl

/-- C62. Path and query of an origin form with at most one question mark are recovered: they are
the text before and after it. -/
theorem C62_origin (m : Method) (hm : m ≠ .connect) (path query : List Char) (hp : '?' ∉ path)
    (hq : '?' ∉ query) :
    Target.make m ('/' :: path) = .ok ⟨'/' :: path, .origin ('/' :: path) none⟩ ∧
    Target.make m ('/' :: path ++ '?' :: query) =
      .ok ⟨'/' :: path ++ '?' :: query, .origin ('/' :: path) (some query)⟩ := by
  have hp' : '?' ∉ '/' :: path := by
    intro h
    rcases List.mem_cons.mp h with h | h
    · exact absurd h (by decide)
    · exact hp h
  constructor
  · unfold Target.make
    rw [if_neg (by simp), if_neg hm, if_pos (by rfl), splitOn_none _ _ hp']
  · unfold Target.make
    rw [if_neg (by simp), if_neg hm, if_pos (by rfl), splitOn_append '?' _ _ hp', splitOn_none _ _ hq]

/-- C62. The path is always the text before the first question mark, and is what `path` gives. -/
theorem C62_path (m : Method) (hm : m ≠ .connect) (path rest : List Char) (hp : '?' ∉ path) :
    (Target.make m ('/' :: path ++ '?' :: rest) >>= Target.path) = .ok ('/' :: path) := by
  have hp' : '?' ∉ '/' :: path := by
    intro h
    rcases List.mem_cons.mp h with h | h
    · exact absurd h (by decide)
    · exact hp h
  unfold Target.make
  rw [if_neg (by simp), if_neg hm, if_pos (by rfl), splitOn_append '?' _ _ hp']
  cases hs : splitOn '?' rest with
  | nil => exact absurd hs (splitOn_ne_nil _ _)
  | cons a b => rfl

/-- C62 in full fails: a query is cut at a second question mark, whatever follows it. -/
theorem C62_query_fails (m : Method) (hm : m ≠ .connect) (path q rest : List Char) (hp : '?' ∉ path)
    (hq : '?' ∉ q) :
    Target.make m ('/' :: path ++ '?' :: (q ++ '?' :: rest)) =
      .ok ⟨'/' :: path ++ '?' :: (q ++ '?' :: rest), .origin ('/' :: path) (some q)⟩ := by
  have hp' : '?' ∉ '/' :: path := by
    intro h
    rcases List.mem_cons.mp h with h | h
    · exact absurd h (by decide)
    · exact hp h
  unfold Target.make
  rw [if_neg (by simp), if_neg hm, if_pos (by rfl), splitOn_append '?' _ _ hp', splitOn_append '?' _ _ hq]

example : Target.make .get "/a/b?x=1".toList = .ok ⟨"/a/b?x=1".toList, .origin "/a/b".toList (some "x=1".toList)⟩ ∧
    Target.make .options "*".toList = .ok ⟨"*".toList, .asterisk⟩ ∧
    Target.make .connect "h.org:80".toList = .ok ⟨"h.org:80".toList, .authority "h.org".toList 80⟩ ∧
    Target.make .get "http://x/".toList = .ok ⟨"http://x/".toList, .absolute "http://x/".toList⟩ ∧
    Target.make .get "/a?b?c".toList = .ok ⟨"/a?b?c".toList, .origin "/a".toList (some "b".toList)⟩ := by
  decide +kernel

end Verif.Http
