import Verif.Model.Routes
import Verif.Spec.Paths
import Verif.Spec.Text

/-!
# Specification: which address gives what
-/

namespace Hound.Spec
open Routes

/-- A name that can stand in an address as it is. -/
structure PlainName (n : Bytes) : Prop where
  some : n ≠ []
  here : n ≠ b!"."
  up : n ≠ b!".."
  one : 47 ∉ n

/-- A path from the root with plain names only, and perhaps a slash at the end. -/
def PlainPath (p : Bytes) : Prop := ∃ names : List Bytes, (∀ n ∈ names, PlainName n) ∧
  (p = absolutePath names ∨ (names ≠ [] ∧ p = absolutePath names ++ b!"/"))

/-- The addresses of the programming interface. -/
def callAt : Call → Bytes
  | .repos => b!"/api/v1/repos"
  | .search => b!"/api/v1/search"
  | .excludes => b!"/api/v1/excludes"
  | .update => b!"/api/v1/update"
  | .webhook => b!"/api/v1/github-webhook"

/-- The addresses of the pages. -/
def pageAt : Page → Bytes
  | .main => b!"/"
  | .openSearch => b!"/open_search.xml"
  | .excluded => b!"/excluded_files.html"

/-- The path belongs to a call or a page. -/
def Taken (p : Bytes) : Prop := (∃ c, p = callAt c) ∨ ∃ g, p = pageAt g

/-- The file of this path: names are relative to the directory of the assets. -/
def FileAt (files : Files) (p content : Bytes) : Prop :=
  ∃ names : List Bytes, names ≠ [] ∧ (∀ n ∈ names, PlainName n) ∧ ValidUtf8 p ∧ p = absolutePath names ∧
    files.lookup (b!".build/ui" ++ p) = some content

/-- What is found at a path. -/
inductive Found (files : Files) (p : Bytes) : Reply → Prop
  | call {c} : p = callAt c → Found files p (.call c)
  | page {g} : p = pageAt g → Found files p (.page g)
  | asset {content} : ¬ Taken p → FileAt files p content → Found files p (.asset content)
  | nothing : ¬ Taken p → (∀ content, ¬ FileAt files p content) → Found files p .notFound

/-- A request as browsers and other programs make it. -/
structure Ordinary (r : Req) : Prop where
  notStar : r.requestURI ≠ b!"*"
  notConnect : r.method ≠ b!"CONNECT"

end Hound.Spec
