import Verif.Spec.CmdLine
import Verif.Spec.HoundCmd
/-!
# Specification: what is asked of the server

How the server reads a request is in `Spec/UrlQuery` and `Spec/Api`.
-/

namespace Hound
namespace Flag
open Spec Cmd

/-- The server named by the configuration files, or else by the flag. -/
def ServerOf (files : List ConfFile) (flag host : Bytes) : Prop :=
  (hostsGiven files = [] ∧ host = flag) ∨ ∃ a, hostsGiven files = a ++ [host]

/-- What the flags of a command line say, each as given last or else as it is by default. -/
structure Typed (dh : Bytes) (sets : List (Bytes × Val)) (host repos only : Bytes) (context : Int) (ignoreCase stats : Bool) : Prop where
  host : Has sets b!"host" (.str (if dh = [] then b!"localhost:6080" else dh)) (.str host)
  repos : Has sets b!"repos" (.str b!"*") (.str repos)
  files : Has sets b!"files" (.str []) (.str only)
  context : Has sets b!"context" (.int 2) (.int context)
  ignoreCase : Has sets b!"ignore-case" (.bool false) (.bool ignoreCase)
  stats : Has sets b!"show-stats" (.bool false) (.bool stats)

/-- The request asks for the search that was typed: at this server, for this pattern, in these repositories, with these options. -/
def AsksFor (req : Request) (host pat repos only : Bytes) (context : Int) (ignoreCase stats : Bool) : Prop :=
  ∃ q, req.url = b!"http://" ++ host ++ b!"/api/v1/search?" ++ q ∧ (35 : UInt8) ∉ q ∧
    Url.formValue q b!"q" = pat ∧ Url.formValue q b!"repos" = repos ∧ Api.parseAsBool (Url.formValue q b!"stats") = stats ∧
    ∀ dflt, Api.searchOptions (Url.formValue q) dflt =
      { ignoreCase := ignoreCase
        literalSearch := false
        linesOfContext := if 0 ≤ context ∧ context < 2 ^ 54 then min context.toNat 20 else 2
        fileRegexp := only
        excludeFileRegexp := []
        offset := 0
        limit := 0
        maxResults := dflt }

end Flag
end Hound
