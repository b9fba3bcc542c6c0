import Verif.Spec.DevUi
/-!
`ui/ui.go` in development mode: the handler reads and parses the template of a page at each request, and keeps it in a
field all requests share. Writes and reads of that field are taken to be whole (the two words of `c.tpl` always
have the same type for a page). How a template is parsed and executed is any function.
-/

namespace Hound.DevUi

/-- ui/content.go:42-64: the pages made from templates, with the programs they need. -/
def contents (p : Bytes) : Option (List Bytes) :=
  if p = b!"/" then some [b!"js/hound.js"]
  else if p = b!"/open_search.xml" then some []
  else if p = b!"/excluded_files.html" then some [b!"js/excluded_files.js"]
  else none

/-- What does not change: the title and the repositories as JSON (config/config.go:222-229), and the file server for
all other addresses, ui/ui.go:179-187. Files that change while they are served are left out. -/
structure Env where
  title : Bytes
  repos : Bytes
  static : Bytes → Option Bytes

/-- ui/ui.go:92-95: the tags for the programs. -/
def scripts : List Bytes → Bytes
  | [] => []
  | s :: t => b!"<script src=\"http://localhost:8080/ui/" ++ (s ++ (b!"\"></script>" ++ scripts t))

/-- ui/ui.go:97-103: what the template is given; `ReactVersion` is ui/content.go:7. -/
def dataFor (env : Env) (srcs : List Bytes) (host : Bytes) : Data :=
  ⟨b!"0.12.2", env.repos, env.title, scripts srcs, host⟩

/-- How far a request has come in `renderForDev`. (for ui/ui.go:45-104) -/
inductive Ph (T : Type) where
  | opened
  /-- `ParseFiles` has returned this (`none`: nil and an error) -/
  | parsed (t : Option T)
  /-- the result was assigned, and there was an error -/
  | failed
  /-- the result was assigned, and there was no error -/
  | stored
  | done

/-- The files, the fields `tpl` of the pages (`none`: nil), and the requests with page and host. (for ui/ui.go:19-31,
ui/content.go:20-37) -/
structure St (T : Type) where
  file : Bytes → Option Bytes
  tpl : Bytes → Option T
  req : Nat → Option (Bytes × Bytes × Ph T)

/-- Put a value in its place. (for ui/ui.go:71, 79) -/
def upd {A B : Type} [DecidableEq A] (f : A → B) (a : A) (b : B) : A → B := fun x => if x = a then b else f x

/-- One thing happens: someone edits a template, a request arrives, or a request goes on. (ui/ui.go:45-104; each
constructor below its lines) -/
inductive Step {T : Type} (E : Engine T) (env : Env) (s : St T) : Ev → St T → Prop where
  | edit (p : Bytes) (f : Option Bytes) : Step E env s (.edit p f) { s with file := upd s.file p f }
  | arrive (r : Nat) (p h : Bytes) : s.req r = none →
      Step E env s (.arrive r p h) { s with req := upd s.req r (some (p, h, .opened)) }
  /- ui/ui.go:48-54: not a page made from a template -/
  | static (r : Nat) (p h : Bytes) : s.req r = some (p, h, .opened) → contents p = none →
      Step E env s (.answer r (env.static p)) { s with req := upd s.req r (some (p, h, .done)) }
  /- ui/ui.go:68-79: `ParseFiles` -/
  | parse (r : Nat) (p h : Bytes) (srcs : List Bytes) : s.req r = some (p, h, .opened) → contents p = some srcs →
      Step E env s .inside { s with req := upd s.req r (some (p, h, .parsed (E.parse p (s.file p)))) }
  /- ui/ui.go:71-74, 79-82: `c.tpl, err =`, with nil in case of an error -/
  | store (r : Nat) (p h : Bytes) (t : Option T) : s.req r = some (p, h, .parsed t) →
      Step E env s .inside { s with
        tpl := upd s.tpl p t
        req := upd s.req r (some (p, h, if t.isSome then .stored else .failed)) }
  /- ui/ui.go:58-60: `log.Panic`, which net/http turns into a closed connection -/
  | fail (r : Nat) (p h : Bytes) : s.req r = some (p, h, .failed) →
      Step E env s (.answer r none) { s with req := upd s.req r (some (p, h, .done)) }
  /- ui/ui.go:97: `c.tpl.Execute`; executing nil panics. What was written before an error is left out. -/
  | execute (r : Nat) (p h : Bytes) (srcs : List Bytes) : s.req r = some (p, h, .stored) → contents p = some srcs →
      Step E env s (.answer r ((s.tpl p).bind fun t => E.run t (dataFor env srcs h)))
        { s with req := upd s.req r (some (p, h, .done)) }

/-- Any number of steps. (for ui/ui.go:45-104) -/
inductive Steps {T : Type} (E : Engine T) (env : Env) (s : St T) : List Ev → St T → Prop where
  | refl : Steps E env s [] s
  | step {tr : List Ev} {t u : St T} {e : Ev} : Steps E env s tr t → Step E env t e u → Steps E env s (tr ++ [e]) u

/-- Before the first request: no template has been parsed. (for ui/ui.go:179-187) -/
def start {T : Type} (f0 : Bytes → Option Bytes) : St T := ⟨f0, fun _ => none, fun _ => none⟩

end Hound.DevUi
