import Verif.Model.Paths
import Verif.Model.TextFile

/-!
# Which address gives what: `web/web.go`, `api/api.go` (`Setup`), `ui/ui.go`, `ui/content.go`, `ui/bindata.go`

With `net/http.ServeMux` as it is for programs whose go.mod says less than go 1.22 (this one says 1.16), and `embed.FS`.
Modelled from the Go source as known, since the standard library is not in the sandbox.
-/

namespace Hound.Routes

open Path (SL)

/-- The calls of the programming interface (api/api.go:178, 187, 235, 243, 274). -/
inductive Call where
  | repos | search | excludes | update | webhook
deriving DecidableEq

/-- The pages made from templates (ui/content.go:42-64). -/
inductive Page where
  | main | openSearch | excluded
deriving DecidableEq

/-- What a request is answered by. (for web/web.go:27-42) -/
inductive Reply where
  /-- web/web.go:28-31 -/
  | healthy
  /-- web/web.go:38-40 -/
  | notReady
  /-- net/http.ServeMux: 400 -/
  | badRequest
  /-- net/http.ServeMux: 301, to this path (with the same query) -/
  | redirect (path : Bytes)
  | call (c : Call)
  | page (p : Page)
  /-- ui/ui.go:121: a file, with this content -/
  | asset (content : Bytes)
  /-- 404 -/
  | notFound
  /-- ui/ui.go:140: `p[1:]` of an empty string -/
  | panic
deriving DecidableEq

/-- What matters of a request: `r.URL.Path` is the path without percent-encoding. (for web/web.go:27-42) -/
structure Req where
  method : Bytes
  requestURI : Bytes
  path : Bytes

/-- The files in the program, with their names (ui/bindata.go:11-12). -/
abbrev Files := List (Bytes × Bytes)

/-- The elements of a path (io/fs: the loop of `ValidPath`). (for ui/bindata.go:28-34) -/
def elements : Bytes → List Bytes
  | [] => [[]]
  | c :: t =>
    if c = SL then [] :: elements t
    else match elements t with
      | [] => [[c]]
      | n :: ns => (c :: n) :: ns

/-- io/fs: `ValidPath`. (for ui/bindata.go:28-34) -/
def validPath (name : Bytes) : Bool :=
  utf8Valid name && (name == b!"." || (elements name).all fun e => !(e == []) && !(e == b!".") && !(e == b!".."))

/-- ui/bindata.go:28-34 `Asset` (and 17-23 `AssetInfo`, which fails if `Asset` does): directories can be opened but not
read. -/
def asset (files : Files) (name : Bytes) : Option Bytes :=
  let name := b!".build/ui/" ++ name
  if validPath name then files.lookup name else none

/-- ui/content.go:42-64: the pages. -/
def contents : List (Bytes × Page) :=
  [(b!"/", .main), (b!"/open_search.xml", .openSearch), (b!"/excluded_files.html", .excluded)]

/-- ui/ui.go:124-141 `prdHandler.ServeHTTP`, 108-122 `serveAsset`. Failures to write the answer are left out. -/
def uiServe (files : Files) (p : Bytes) : Reply :=
  match contents.lookup p with
  | some c => .page c
  | none =>
    match p with
    | [] => .panic
    | _ :: name =>
      match asset files name with
      | some a => .asset a
      | none => .notFound

/-- api/api.go:177-320 `Setup`: what is registered. -/
def apiPatterns : List (Bytes × Call) :=
  [(b!"/api/v1/repos", .repos), (b!"/api/v1/search", .search), (b!"/api/v1/excludes", .excludes),
   (b!"/api/v1/update", .update), (b!"/api/v1/github-webhook", .webhook)]

/-- net/http: `cleanPath`. (for web/web.go:78-80) -/
def cleanPath (p : Bytes) : Bytes :=
  if p = [] then [SL]
  else
    let p := if p.head? = some SL then p else SL :: p
    let np := Path.clean p
    if p.getLast? = some SL ∧ np ≠ [SL] then np ++ [SL] else np

/-- net/http: `ServeMux.match` and the handler it finds: a registered path, or else the longest registered prefix that
ends in a slash, of which there is one, `/`. (for web/web.go:78-80) -/
def muxMatch (files : Files) (p : Bytes) : Reply :=
  if p = [SL] then uiServe files p
  else match apiPatterns.lookup p with
    | some c => .call c
    | none => if p.head? = some SL then uiServe files p else .notFound

/-- net/http: `ServeMux.ServeHTTP` and `Handler`. (for web/web.go:78-80) -/
def muxServe (files : Files) (r : Req) : Reply :=
  if r.requestURI = b!"*" then .badRequest
  else if r.method = b!"CONNECT" then muxMatch files r.path
  else
    let p := cleanPath r.path
    if p ≠ r.path then .redirect p else muxMatch files r.path

/-- web/web.go:27-42 `Server.ServeHTTP`. -/
def serve (files : Files) (healthURI : Bytes) (ready : Bool) (r : Req) : Reply :=
  if r.path = healthURI then .healthy
  else if ready then muxServe files r
  else .notReady

end Hound.Routes
