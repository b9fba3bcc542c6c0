import Verif.Model.Walk

/-!
# Where the files of a directory tree are
-/

namespace Hound.Spec

/-- The entries of a directory, as a list. -/
def entriesOf : FsForest → List (Bytes × FsNode)
  | .nil => []
  | .cons name n rest => (name, n) :: entriesOf rest

/-- The options leave out what has this name: it is a special name, or the names with a dot are left out. -/
def LeftOut (opt : IndexOptions) (name : Bytes) : Prop :=
  name ∈ opt.specialFiles ∨ (opt.excludeDotFiles = true ∧ name.head? = some 46)

instance (opt : IndexOptions) (name : Bytes) : Decidable (LeftOut opt name) := by unfold LeftOut; infer_instance

/-- `Under opt R top n path name m`: from `n`, which is called `top`, the names `path` lead to `m`, which is called
`name`; no directory on the way is left out, and `R` holds of the way's directories (of whether they can
be listed). -/
inductive Under (opt : IndexOptions) (R : Bool → Prop) : Bytes → FsNode → List Bytes → Bytes → FsNode → Prop
  | here (top : Bytes) (n : FsNode) : Under opt R top n [] top n
  | step {top : Bytes} {readable : Bool} {entries : FsForest} {name : Bytes} {n : FsNode} {path : List Bytes}
      {last : Bytes} {m : FsNode} : ¬ LeftOut opt top → R readable → (name, n) ∈ entriesOf entries →
      Under opt R name n path last m → Under opt R top (.dir readable entries) (name :: path) last m

/-- The path as a text: names separated by slashes; "." for the root. -/
def relPath : List Bytes → Bytes
  | [] => [46]
  | [a] => a
  | a :: b :: t => a ++ 47 :: relPath (b :: t)

/-- A name a directory entry can have. -/
def GoodName (name : Bytes) : Prop := name ≠ [] ∧ (47 : UInt8) ∉ name ∧ name ≠ [46]

mutual
/-- The names in a directory are good and different. -/
def WellNamed : FsNode → Prop
  | .dir _ f => WellNamedAll f
  | _ => True
def WellNamedAll : FsForest → Prop
  | .nil => True
  | .cons name n rest => GoodName name ∧ (∀ e ∈ entriesOf rest, e.1 ≠ name) ∧ WellNamed n ∧ WellNamedAll rest
end

/-- A regular file or something else that is not a directory. -/
def IsFile : FsNode → Prop
  | .file _ _ => True
  | .irregular => True
  | _ => False

end Hound.Spec
