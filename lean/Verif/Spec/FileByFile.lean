import Verif.Spec.EndToEnd

/-!
# Specification: what the answer to a search may depend on
-/

namespace Hound.Spec
open Hound

/-- codesearch/regexp/regexp.go:33-54 `Compile`, index/index.go:191-207: every pattern that compiles is looked up
with the query `RegexpQuery` makes for it, whatever the query is. -/
def QueriesOfPatterns (compile : Bytes → Option (Compiled Query)) : Prop :=
  ∀ pat c, compile pat = some c → ∃ grow orbit re, c.query = (HInfo.regexpQuery grow orbit re).1

/-- No paging and no cap. The file filters may be set. -/
structure Whole (opt : SearchOptions) : Prop where
  offset : opt.offset ≤ 0
  limit : opt.limit ≤ 0
  maxResults : opt.maxResults ≤ 0

/-- What a search answers about the file with this name: nothing, or its matches. -/
def AnswerAbout (r : SearchResponse) (name : Bytes) : List FileMatch :=
  r.matches_.filter fun fm => fm.filename == name

end Hound.Spec
