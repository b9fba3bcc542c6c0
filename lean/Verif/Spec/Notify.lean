import Verif.Spec.ConfigFile
import Verif.Spec.JsonGrammar
import Verif.Spec.Api

/-!
# Specification: notifications
-/

namespace Hound.Spec
open JsonText (Value)

/-- All that a notification says about the repository. -/
def aboutRepository (v : Value Bytes) : List (Bytes × Value Bytes) :=
  (said b!"repository" (objectMembers v)).flatMap objectMembers

/-- The repository a notification names: the last text given as its full name. -/
def namedRepository (v : Value Bytes) : Bytes := textSaid (said b!"full_name" (aboutRepository v))

/-- What is said about the repository is of the right kind. -/
def NotificationOk (v : Value Bytes) : Prop :=
  ObjectOk (fun ms => SaidOk b!"repository" (ObjectOk fun rs => SaidOk b!"name" TextOk rs ∧ SaidOk b!"full_name" TextOk rs) ms) v

/-- The body of an answer is a JSON text that says what went wrong: `{"Error": message}`. -/
def ReportsError (body message : Bytes) : Prop := JsonText.goRead body = some (.obj [(b!"Error", .str message)])

end Hound.Spec
