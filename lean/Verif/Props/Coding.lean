import Verif.Proofs.Coding

/-! # C40: integer codings round-trip -/

namespace Hound

/-- **C40** A `uint32` written with `writeUvarint` is read back by `binary.Uvarint` unchanged, whatever
follows it, and exactly the written bytes are consumed. -/
theorem uvarint_roundtrip {x : Nat} (h : x < 2 ^ 32) (rest : Bytes) :
    uvarint (putUvarint x ++ rest) = some (x, (putUvarint x).length) := uvarint_put h rest

/-- **C40** A `uint32` written with `writeUint32` takes four bytes and is read back unchanged. -/
theorem uint32_roundtrip {x : Nat} (h : x < 2 ^ 32) (rest : Bytes) :
    getUint32 (putUint32 x ++ rest) = some x ∧ (putUint32 x).length = 4 := ⟨getUint32_put h rest, rfl⟩

/-- **C40** A trigram written with `writeTrigram` takes three bytes and is read back unchanged. -/
theorem trigram_roundtrip {t : Nat} (h : t < 2 ^ 24) (rest : Bytes) :
    getTrigram (putTrigram t ++ rest) = some t ∧ (putTrigram t).length = 3 := ⟨getTrigram_put h rest, rfl⟩

/-- **C40** The trigram number of three bytes determines the bytes. -/
theorem trigram_bytes {a b c : UInt8} {t : Nat} (h : getTrigram [a, b, c] = some t) :
    putTrigram t = [a, b, c] ∧ t < 2 ^ 24 := putTrigram_get h

/-- **C40** Trigram and file id of a posting entry are recovered from it. -/
theorem postEntry_roundtrip {t f : Nat} (ht : t < 2 ^ 32) (hf : f < 2 ^ 32) :
    entryTrigram (makePostEntry t f) = t ∧ entryFileid (makePostEntry t f) = f :=
  ⟨entryTrigram_make ht hf, entryFileid_make ht hf⟩

example : uvarint (putUvarint 4000000000 ++ b!"xyz") = some (4000000000, 5) := by decide
example : getUint32 (putUint32 3735928559 ++ b!"xyz") = some 3735928559 := by decide
example : getTrigram b!"abc" = some 6382179 := by decide
example : putTrigram 6382179 = b!"abc" := by decide
example : entryTrigram (makePostEntry 6382179 17) = 6382179 := by decide

end Hound
