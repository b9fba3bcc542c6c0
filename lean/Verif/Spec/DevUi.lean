import Verif.Model.Basic
/-!
The pages while they are being worked on (`houndd -dev`): a page shows its template as it is.
-/

namespace Hound.DevUi

/-- What can be seen from outside. -/
inductive Ev where
  /-- the template of page `p` is now this file (`none`: there is none) -/
  | edit (p : Bytes) (file : Option Bytes)
  /-- request `r` asks for page `p`, with this name of the server -/
  | arrive (r : Nat) (p host : Bytes)
  /-- request `r` is answered with this text; `none`: the connection is closed without one -/
  | answer (r : Nat) (out : Option Bytes)
  /-- something that cannot be seen -/
  | inside
deriving DecidableEq

/-- The template of a page after these events. -/
def fileAt (f0 : Bytes → Option Bytes) : List Ev → Bytes → Option Bytes
  | [], p => f0 p
  | .edit q f :: t, p => fileAt (fun x => if x = q then f else f0 x) t p
  | _ :: t, p => fileAt f0 t p

/-- What a template is given. -/
structure Data where
  reactVersion : Bytes
  repos : Bytes
  title : Bytes
  source : Bytes
  host : Bytes
deriving DecidableEq

/-- A template engine: templates from files (`none`: an error), and texts from templates (`none`: an error). -/
structure Engine (T : Type) where
  parse : Bytes → Option Bytes → Option T
  run : T → Data → Option Bytes

/-- What is shown for a template: the text the engine makes of it; nothing if there is an error. -/
def shown {T : Type} (E : Engine T) (p : Bytes) (file : Option Bytes) (d : Data) : Option Bytes :=
  match E.parse p file with
  | none => none
  | some t => E.run t d

/-- The pages that are made from templates, and the tags that load their programs. -/
def pages : List (Bytes × Bytes) :=
  [(b!"/", b!"<script src=\"http://localhost:8080/ui/js/hound.js\"></script>"),
   (b!"/open_search.xml", []),
   (b!"/excluded_files.html", b!"<script src=\"http://localhost:8080/ui/js/excluded_files.js\"></script>")]

/-- No request for the page has arrived that has not been answered. -/
def Idle (p : Bytes) (tr : List Ev) : Prop :=
  ∀ r h, Ev.arrive r p h ∈ tr → ∃ out, Ev.answer r out ∈ tr

end Hound.DevUi
