import Verif.Model.PageStart
import Verif.Model.UiRepos

/-!
# Searching from the search field of the browser

`ui/assets/open_search.tpl.xml` (the description of the search for browsers), how a browser uses it, and what the page does
when it is opened with the address made from it (`ui/assets/js/hound.js`).
-/

namespace Hound.OpenSearch

open Ui (JsStr js)

/-- ui/assets/open_search.tpl.xml:1-9, up to the name of the host. -/
def xml1 : Bytes :=
  b!"<?xml version=\"1.0\" encoding=\"UTF-8\"?>\n\n<OpenSearchDescription xmlns=\"http://a9.com/-/spec/opensearch/1.1/\">\n    <ShortName>Hound</ShortName>\n    <Description>Search code with Hound</Description>\n    <Tags>Hound</Tags>\n    <Url type=\"text/html\"\n         method=\"get\"\n         template=\"http://"

/-- open_search.tpl.xml:9-10. -/
def xml2 : Bytes := b!"/?q={searchTerms}\" />\n</OpenSearchDescription>\n"

/-- ui/ui.go:143-164 `renderForPrd` with open_search.tpl.xml, which is a template of text/template (ui/ui.go:205-212):
nothing is escaped. -/
def description (host : Bytes) : Bytes := xml1 ++ (host ++ xml2)

/-! ## The browser -/

/-- The value of an attribute (XML 1.0, 3.1 and 4.6); `none`: not well formed. References by number are left out.
(for ui/assets/open_search.tpl.xml:7-9) -/
def readAttr : Bytes → Option Bytes
  | [] => some []
  | 38 :: 97 :: 109 :: 112 :: 59 :: t => (readAttr t).map (38 :: ·)
  | 38 :: 108 :: 116 :: 59 :: t => (readAttr t).map (60 :: ·)
  | 38 :: 103 :: 116 :: 59 :: t => (readAttr t).map (62 :: ·)
  | 38 :: 113 :: 117 :: 111 :: 116 :: 59 :: t => (readAttr t).map (34 :: ·)
  | 38 :: 97 :: 112 :: 111 :: 115 :: 59 :: t => (readAttr t).map (39 :: ·)
  | c :: t => if c = 38 ∨ c = 60 then none else (readAttr t).map (c :: ·)

/-- The address a browser opens for a search, given the encoded terms (OpenSearch 1.1, URL template syntax; other
parameters than `{searchTerms}` are left out). (for ui/assets/open_search.tpl.xml:7-9) -/
def visit (xml terms : Bytes) : Option Bytes := do
  let raw ← Boot.between b!"template=\"" b!"\"" xml
  let t ← readAttr raw
  let (a, b) ← Boot.cut b!"{searchTerms}" t
  return a ++ terms ++ b

/-! ## The page -/

/-- hound.js:95-104 `Load`: the parameters of the search the page makes when it is opened with an address. `none`: it makes
none. Other parameters of the address than those of the form, which would be sent as well, are left out. -/
def opened (address : Bytes) : Option (List (JsStr × JsStr)) := do
  let m ← Ui.paramsFromQueryString (Ui.locationSearch (js address)) Ui.noParams
  let q ← m (js b!"q")
  let i ← m (js b!"i")
  let literal ← m (js b!"literal")
  let files ← m (js b!"files")
  let excludeFiles ← m (js b!"excludeFiles")
  let repos ← m (js b!"repos")
  if q = [] then none else some (Ui.searchData ⟨q, i, literal, files, excludeFiles, repos⟩)

end Hound.OpenSearch
