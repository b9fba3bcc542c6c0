import Verif.Model.Merge
import Verif.Spec.IndexFiles

/-!
# What a merged index is, for the reader

Documents are pairs of a name and a content. `<` on names and paths is the order of byte strings, `<+:` is
"is a prefix of", `<:+:` is "is a block of".
-/

namespace Hound
namespace Spec

/-- The index file can be opened and holds these paths and documents: names and paths come back, documents are
numbered in this order, and the posting list of three bytes is the ascending list of the numbers of the documents
that contain them. -/
def Serves (data : Bytes) (paths : List Bytes) (docs : List (Bytes × Bytes)) : Prop :=
  ∃ ix, RIndex.open data = some ix ∧ ix.numName = docs.length ∧
    (∀ (i : Nat) (name content : Bytes), docs[i]? = some (name, content) → ix.name i = some name) ∧
    ix.paths = some paths ∧
    ∀ a b c : UInt8, ∃ l, ix.postingList (triVal a b c) none = some l ∧ l.Pairwise (· < ·) ∧
      ∀ i, i ∈ l ↔ ∃ name content, docs[i]? = some (name, content) ∧ [a, b, c] <:+: content

/-- The documents of a merged index: in the order of their names, those of the first index whose name does not
begin with a path of the second, and those of the second. -/
def MergedDocs (docs1 docs2 : List (Bytes × Bytes)) (paths2 : List Bytes) (docs3 : List (Bytes × Bytes)) : Prop :=
  docs3.Pairwise (fun d e => d.1 < e.1) ∧
  ∀ d, d ∈ docs3 ↔ (d ∈ docs1 ∧ ∀ p ∈ paths2, ¬ p <+: d.1) ∨ d ∈ docs2

/-- The paths of a merged index: in their order, the paths of both that do not begin with another one. -/
def MergedPaths (paths1 paths2 paths3 : List Bytes) : Prop :=
  paths3.Pairwise (fun p q => p < q) ∧
  ∀ p, p ∈ paths3 ↔ (p ∈ paths1 ∨ p ∈ paths2) ∧ ∀ q, (q ∈ paths1 ∨ q ∈ paths2) → q <+: p → q = p

/-- The documents are in the order of their names, the paths in their order (a path may be given twice), and
paths end in an ASCII character other than the last, DEL. -/
structure Orderly (paths : List Bytes) (docs : List (Bytes × Bytes)) : Prop where
  names : docs.Pairwise (fun d e => d.1 < e.1)
  inOrder : paths.Pairwise (fun p q => p < q ∨ p = q)
  ascii : ∀ p ∈ paths, ∃ q c, p = q ++ [c] ∧ c < 0x7F

/-- Every document has a name that begins with one of the paths. -/
def Covered (paths : List Bytes) (docs : List (Bytes × Bytes)) : Prop := ∀ d ∈ docs, ∃ p ∈ paths, p <+: d.1

/-- Paths and documents that certainly fit into an index file, whose size must not reach 4 GB. -/
def Small (paths : List Bytes) (docs : List (Bytes × Bytes)) : Prop :=
  (paths.map (fun p => p.length + 1)).sum + (docs.map (fun f => f.1.length + 5 + 20 * f.2.length)).sum + 73 < 2 ^ 32

/-- The index files made by the index writer, and by merging from them; with the paths and documents they are
to hold. -/
inductive Made : Bytes → List Bytes → List (Bytes × Bytes) → Prop
  | write {cfg : IWConfig} {paths : List Bytes} {files : List (Bytes × Reader)} {answers : List (Option SkipReason)}
      {data : Bytes} : 0 < cfg.npost → buildIndex cfg paths files = some (answers, data) →
      (∀ p ∈ paths, p ≠ [] ∧ (0 : UInt8) ∉ p) → Made data paths (indexedFiles files answers)
  | merge {cap : Nat} {data1 data2 data : Bytes} {paths1 paths2 paths : List Bytes}
      {docs1 docs2 docs : List (Bytes × Bytes)} : Made data1 paths1 docs1 → Made data2 paths2 docs2 →
      Orderly paths1 docs1 → Orderly paths2 docs2 → Covered paths2 docs2 →
      MergedPaths paths1 paths2 paths → MergedDocs docs1 docs2 paths2 docs → Small paths docs →
      Merge.merge cap data1 data2 = some data → Made data paths docs

end Spec
end Hound
