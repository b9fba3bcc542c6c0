import Verif.Spec.Fair
import Verif.Spec.LiteralPage
import Verif.Spec.Tree

/-!
# Specification: what is in a repository, and what a search for a text has to report of it
-/

namespace Hound.Spec
open Pat GoRe

/-- A file of the tree that can be reached and opened and is not left out by its name, with its path and its content. `unlisted` are the paths
that are not in the list of excluded files. -/
def InTree (opt : IndexOptions) (rootName : Bytes) (root : FsNode) (unlisted : Bytes → Prop) (p content : Bytes) : Prop :=
  ∃ path name r, p = relPath path ∧ Under opt (· = true) rootName root path name (.file true r) ∧ ¬ LeftOut opt name ∧ unlisted p ∧
    content = r.content

/-- The files that are not left out can be read to their ends. -/
def AllReadable (opt : IndexOptions) (rootName : Bytes) (root : FsNode) : Prop :=
  ∀ path name r, Under opt (· = true) rootName root path name (.file true r) → ¬ LeftOut opt name → r.Ok

/-- A line of one of these files, with the path of the file and its number, that has the text in it. -/
def TextOnLine (orbit : Rune → List Rune) (caseless : Bool) (rs : List Rune) (file : Bytes → Bytes → Prop) (p : Bytes) (k : Nat) (line : Bytes) : Prop :=
  ∃ content a e, file p content ∧ LineAt content a e ∧ k = (content.take a).count NL + 1 ∧ line = slice content a e ∧ HasText orbit caseless rs line

/-- A search that begins at moment `m` or later, and ends at moment `b`: it reports revision `r`, and was made in index `h`. -/
def SearchedAfter (ev : Nat → Option Cur.Ev) (m b r h : Nat) : Prop :=
  ∃ a i, m ≤ a ∧ a < b ∧ ev a = some (.sr (.searchStart i)) ∧ ev b = some (.sr (.searchEnd i r h)) ∧
    ∀ k, a < k → k < b → ∀ r h, ev k ≠ some (.sr (.searchEnd i r h))

end Hound.Spec
