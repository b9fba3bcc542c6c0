import Verif.Model.OpenSearch
import Verif.Spec.Boot

/-!
# Specification: searching from the search field of the browser
-/

namespace Hound.Spec

/-- A letter or a digit. -/
def AlphaNum (c : UInt8) : Prop := (48 ≤ c ∧ c ≤ 57) ∨ (65 ≤ c ∧ c ≤ 90) ∨ (97 ≤ c ∧ c ≤ 122)

instance (c : UInt8) : Decidable (AlphaNum c) := by unfold AlphaNum; infer_instance

/-- Names of hosts that the server accepts in requests (net/http, `httpguts.ValidHostHeader`). -/
def HostName (host : Bytes) : Prop := ∀ c ∈ host, AlphaNum c ∨ c ∈ b!"!$%&()*+,-.:;=['~_]"

/-- How browsers write what was typed into an address: letters, digits and some marks as they are, spaces as `+` or `%20`,
anything else, and anything they please, by the bytes of its UTF-8 encoding. -/
inductive TypedAs : List Rune → Bytes → Prop
  | nil : TypedAs [] []
  | kept {c : UInt8} {rs e} : AlphaNum c ∨ c ∈ b!"-_.~!*'()" → TypedAs rs e → TypedAs (c.toNat :: rs) (c :: e)
  | encoded {r : Rune} {rs e} : validRune r = true → TypedAs rs e → TypedAs (r :: rs) ((encodeRaw r).flatMap Url.pct ++ e)
  | plus {rs e} : TypedAs rs e → TypedAs (32 :: rs) (43 :: e)

/-- What the server reads in a request for a search for a text, with nothing else chosen. -/
structure AsksFor (query : Bytes) (text : List Rune) : Prop where
  q : Url.formValue query b!"q" = text.flatMap encodeRaw
  repos : Url.formValue query b!"repos" = b!"*"
  files : Url.formValue query b!"files" = []
  excludeFiles : Url.formValue query b!"excludeFiles" = []
  ignoreCase : Url.formValue query b!"i" = b!"nope"
  literal : Url.formValue query b!"literal" = b!"nope"

/-- What a text with percent-encoded bytes stands for. -/
inductive PercentFor : Bytes → Bytes → Prop
  | nil : PercentFor [] []
  | same {c : UInt8} {a b} : c ≠ 37 → PercentFor a b → PercentFor (c :: a) (c :: b)
  | byte {c h l : UInt8} {a b} : Url.unhex h = some (c / 16) → Url.unhex l = some (c % 16) → PercentFor a b →
      PercentFor (37 :: h :: l :: a) (c :: b)

end Hound.Spec
