import Verif.Dict
import Verif.Tftp.Path
import Verif.Http.Target
import Verif.Server.Path
/-!
C70: what the web server answers to GET and POST (net/server/__init__.py).
-/
namespace Verif.Server.Files
open Verif Verif.Tftp Verif.Http

/-- The file system seen by the server: which places hold regular files and their contents. Places
are lists of names from the top directory; there are no symbolic links. -/
structure Fs where
  isFile : List Name → Bool
  read : List Name → List Char

/-- What the handlers consult besides the file system. `guess` is `mimetypes.guess_type`, `render`
is `render_markdown_file` after reading (decoding and rendering, possibly raising), `json` is what
`json_handler` writes, `apps` what the application chosen by `html_handler` writes, if there is one.
-/
structure Site where
  cwd : List Name
  paths : List PPath
  redirects : List ((Bool × PPath) × List Char)
  favicon : List Char
  guess : PPath → Option (List Char) × Option (List Char)
  render : List Char → Except PyErr (List Char)
  json : List Char → List Char
  apps : List Char → Option (List Char)

/-- The answer: contents with a content type, or a temporary redirect. -/
inductive Answer where
  | data (content : List Char) (mime : Option (List Char))
  | redirect (to : List Char)
  deriving DecidableEq

def html : List Char := "text/html; charset=utf-8".toList
def icon : List Char := "image/x-icon".toList
def jsonType : List Char := "application/json; charset=utf-8".toList
def notFound : List Char := "/404.html".toList
def favName : List Char := "/favicon".toList

/-- The characters after the last dot; the whole name when there is none. -/
def ext (n : Name) : List Char := (n.reverse.takeWhile (· != '.')).reverse

/-- `PurePath.suffix` is non-empty: the last dot is neither the first nor the last character
(pathlib up to CPython 3.13). -/
def hasSuffix (n : Name) : Bool := (ext n).length + 1 < n.length && (ext n) != []

/-- `with_suffix(".md")` on a name: the suffix, if any, is replaced. -/
def mdName (n : Name) : Name :=
  (if hasSuffix n then n.take (n.length - (ext n).length - 1) else n) ++ ['.', 'm', 'd']

/-- `candidate.with_suffix(".md")`, for a candidate with a name. -/
def mdOf (c : PPath) : PPath :=
  match c.parts.getLast? with
  | some n => ⟨c.abs, c.parts.dropLast ++ [mdName n]⟩
  | none => c

/-- `Path(text)` as a dictionary key: two leading slashes are not one (pathlib). -/
def keyOf (s : List Char) : Bool × PPath :=
  (s.head? == some '/' && s.tail.head? == some '/' && s.tail.tail.head? != some '/', PPath.parse s)

/-- `try_file`, __init__.py 164–200, for the part of the path after its first character. -/
def tryFile (S : Site) (fs : Fs) (rest : List Char) : List PPath → Except PyErr (Option Answer)
  | [] => .ok none
  | s :: ss =>
    let c := s.join (PPath.parse rest)
    if c.parts ≠ [] ∧ fs.isFile ((mdOf c).locate S.cwd) = true then
      match S.render (fs.read ((mdOf c).locate S.cwd)) with
      | .error e => .error e
      | .ok page => .ok (some (.data page (some html)))
    else if fs.isFile (c.locate S.cwd) then
      match S.guess c with
      | (_, some _) => .error .assertion
      | (mime, none) => .ok (some (.data (fs.read (c.locate S.cwd)) mime))
    else tryFile S fs rest ss

/-- `try_redirect`, 121–135. -/
def tryRedirect (S : Site) (path : List Char) : Option Answer :=
  (dget S.redirects (keyOf path)).map .redirect

/-- `add_redirect_path`, 68–79, with `normalize_root` (util.py 25–31) on one text. -/
def addRedirect (S : Site) (src dst : List Char) : Except PyErr Site :=
  let k := if (PPath.parse src).abs then keyOf src else (false, ⟨true, (PPath.parse src).parts⟩)
  if (dget S.redirects k).isSome then .error .assertion
  else .ok { S with redirects := dset S.redirects k dst }

/-- `result or self.redirect_to("/404.html", response)`, 304. -/
def orMissing (content mime : List Char) : Answer :=
  if content = [] then .redirect notFound else .data content (some mime)

/-- `get_handler`, 249–304. -/
def get (S : Site) (fs : Fs) (t : Target) : Except PyErr Answer :=
  match t.form with
  | .origin path _ =>
    if favName <+: path then .ok (.data S.favicon (some icon))
    else
      match tryFile S fs path.tail S.paths with
      | .error e => .error e
      | .ok (some a) => .ok a
      | .ok none =>
        match tryRedirect S path with
        | some a => .ok a
        | none =>
          if hasPart path "json".toList then .ok (orMissing (S.json path) jsonType)
          else
            match S.apps path with
            | some content => .ok (orMissing content html)
            | none => .ok (.redirect notFound)
  | _ => .ok (.redirect notFound)

/-- What a POST does (`post_handler` and `handle_command`, 202–247): the command given to an
environment, or nothing (only a usage message), or no content at all. -/
inductive Posted where
  | command (env : List Char) (text : List Char)
  | usage
  | none
  deriving DecidableEq

/-- `post_handler`, 226–247: `envs` are the registered environments. -/
def post (envs : List (List Char)) (t : Target) : Posted :=
  match t.form with
  | .origin path _ =>
    match (PPath.parse path).parts with
    | [] => .usage
    | e :: args => if e ∈ envs then .command e (joinWith ' ' args) else .usage
  | _ => .none

end Verif.Server.Files
