import Verif.Spec.Indexing
import Verif.Model.FillFrom
import Verif.Model.IndexWrite

/-!
# Specification: files given to the index writer, and the rules for excluding them
-/

namespace Hound

/-- The file can be read to its end: no read error, and no read of 0 bytes before the end. -/
def Reader.Ok (r : Reader) : Prop := r.fails = false ∧ ∀ c ∈ r.chunks, c ≠ []

instance (r : Reader) : Decidable r.Ok := by unfold Reader.Ok; infer_instance

/-- The content of a file. -/
def Reader.content (r : Reader) : Bytes := r.chunks.flatten

/-- The bytes delivered before an empty read, a read error or the end. -/
def Reader.delivered (r : Reader) : Bytes := (r.chunks.takeWhile (fun c => !c.isEmpty)).flatten

namespace Spec

/-- The files that were indexed, with their contents: those that could be read and for which `Add` returned
no reason against it. -/
def indexedFiles (files : List (Bytes × Reader)) (answers : List (Option SkipReason)) : List (Bytes × Bytes) :=
  (files.zip answers).filterMap fun p =>
    if p.1.2.Ok ∧ p.2 = none then some (p.1.1, p.1.2.content) else none

/-- The rule a reason speaks of. -/
def BreaksRule (w : Bytes) : SkipReason → Prop
  /- two bytes that cannot follow each other (or a first byte that cannot be first), among the first
  2^25 + 1 bytes -/
  | .invalidUTF8 => looksUtf8 0 (w.take (2 ^ 25 + 1)) = false
  /- more than 32 MiB -/
  | .tooLong => 2 ^ 25 < w.length
  /- more than 20000 different trigrams, and more than 10% of the number of bytes -/
  | .trigramRatio => 20000 < (trigramsOf w).length ∧ w.length < 10 * (trigramsOf w).length
  /- more than 10% of the newline-terminated lines are longer than 2000 bytes -/
  | .longLines => (endedLines w).length < 10 * (longEndedLines w).length

end Spec

end Hound
