import Verif.Model.Search

/-!
# Specification: pages of a list, and the pattern a search stands for
-/

namespace Hound.Spec
open Hound

/-- The page of a result list starting at `offset` with at most `limit` entries; a limit of zero or
less means "no limit", a negative offset means zero. -/
def page {α : Type} (offset limit : Int) (xs : List α) : List α :=
  if limit > 0 then (xs.drop offset.toNat).take limit.toNat else xs.drop offset.toNat

/-- The pattern a search stands for: `^` and `$` match at lines, case is ignored only if asked for, and a literal
search looks for the quoted text. -/
def fullPattern (quoteMeta : Bytes → Bytes) (pat : Bytes) (opt : SearchOptions) : Bytes :=
  (if opt.ignoreCase then b!"(?i)" else []) ++ b!"(?m)" ++ (if opt.literalSearch then quoteMeta pat else pat)

end Hound.Spec
