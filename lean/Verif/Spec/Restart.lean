import Verif.Model.Restart

/-!
# Specification: what is served after a start
-/

namespace Hound.Spec
open Up Again

variable {F O : Type}

/-- The repository with this number is served from an index that was made of these files with these settings. -/
def ServedFrom (s : St) (g : Made F O) (i : Nat) (f : F) (o : O) : Prop := ∃ d, s.ws[i]? = some (.ok d) ∧ g.made d = some (f, o)

/-- The revisions are true: whenever the same revision of the same url was fetched, there were the same files. -/
def RevisionsTrue (g : Made F O) : Prop :=
  ∀ url rev f f' o o', (url, rev, f, o) ∈ g.seen → (url, rev, f', o') ∈ g.seen → f = f'

/-- Whenever this revision of this url was fetched, in this run or before, the repository had these settings. -/
def SettingsKept (g : Made F O) (url rev : Bytes) (o : O) : Prop := ∀ f o', (url, rev, f, o') ∈ g.seen → o' = o

end Hound.Spec
