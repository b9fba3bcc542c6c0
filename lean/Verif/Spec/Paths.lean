import Verif.Model.Basic

/-!
# Specification: which directory a path names

A path is a list of names between separators (`/`, 47). It is followed name by name: the empty name and `.` stay, `..` goes up,
any other name goes down. Symbolic links are left out of account.
-/

namespace Hound.Spec

/-- The names of a path, between separators. -/
def pathNames : Bytes → List Bytes
  | [] => [[]]
  | c :: t =>
    if c = 47 then [] :: pathNames t
    else match pathNames t with
      | [] => [[c]]
      | n :: ns => (c :: n) :: ns

/-- The directory to which the names lead from a directory, given by the names of the directories from the root down to it. -/
def follow (place : List Bytes) : List Bytes → List Bytes
  | [] => place
  | n :: ns =>
    if n = [] ∨ n = b!"." then follow place ns
    else if n = b!".." then follow place.dropLast ns
    else follow (place ++ [n]) ns

/-- The absolute path of a directory. -/
def absolutePath (place : List Bytes) : Bytes :=
  if place = [] then b!"/" else place.flatMap fun n => 47 :: n

/-- A path from the root. -/
def FromRoot (p : Bytes) : Prop := ∃ t, p = 47 :: t

end Hound.Spec
