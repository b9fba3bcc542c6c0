import Verif.Proofs.BufWriter
import Verif.Model.FillFrom

/-!
# C41: buffered input and output are transparent
-/

namespace Hound

/-- **C41** (output) Whatever calls are made on a `bufWriter` and whatever the size of its buffer, the
bytes that have reached the file once it is flushed are the old contents followed by the bytes of the
calls, in order. -/
theorem bufWriter_transparent (cap : Nat) (cs : List BufWriter.Call) :
    ((BufWriter.create cap).run cs).flush.file =
      cs.flatMap fun c => match c with
        | .write x => x
        | .writeByte x => [x]
        | .writeTrigram t => putTrigram t
        | .writeUint32 x => putUint32 x
        | .writeUvarint x => putUvarint x
        | .flush => []
        | .copyFile src => src.file ++ src.buf := by
  have h := BufWriter.contents_run (b := BufWriter.create cap) cs
  rw [← BufWriter.finish_eq] at h
  simp only [BufWriter.contents_create, List.nil_append] at h
  show ((BufWriter.create cap).run cs).finish = _
  rw [h]
  congr 1

/-- **C41** `offset` is the number of bytes written so far, or the program stops because that is 4 GiB or
more. -/
theorem bufWriter_offset (b : BufWriter) :
    b.offset = if b.flush.file.length < 2 ^ 32 then some b.flush.file.length else none := by
  rw [BufWriter.offset_eq, show b.flush.file = b.contents from BufWriter.finish_eq]

/-- **C41** With a buffer of at least 5 bytes the in-memory buffer never outgrows its capacity. -/
theorem bufWriter_bounded {cap : Nat} (hc : 5 ≤ cap) (cs : List BufWriter.Call) :
    ((BufWriter.create cap).run cs).buf.length ≤ cap := by
  have : ∀ (cs : List BufWriter.Call) (b : BufWriter), b.Fits → b.cap = cap → (b.run cs).buf.length ≤ cap := by
    intro cs
    induction cs with
    | nil => intro b h1 h2; rw [← h2]; exact h1
    | cons c cs ih =>
      intro b h1 h2
      exact ih _ (BufWriter.fits_call h1 (by omega) c) (by rw [BufWriter.cap_call, h2])
  exact this cs _ (by simp [BufWriter.Fits, BufWriter.create]) rfl

example : ((BufWriter.create 6).run [.write b!"ab", .writeUvarint 300, .writeByte 1, .write b!"0123456789",
    .writeTrigram 6382179]).flush.file = b!"ab" ++ [172, 2, 1] ++ b!"0123456789abc" := by decide

/-! ## Reading -/

theorem readFull_spec {fails : Bool} : ∀ (cs : List Bytes) (want : Nat),
    (readFull fails cs want).1 ++ (readFull fails cs want).2.1.flatten = cs.flatten ∧
    (readFull fails cs want).1.length ≤ want ∧
    ((readFull fails cs want).2.2 = .full → (readFull fails cs want).1.length = want) ∧
    ((readFull fails cs want).2.2 ≠ .full → (readFull fails cs want).2.1 = []) ∧
    ((readFull fails cs want).2.2 = .eof → fails = false) ∧
    ((readFull fails cs want).2.2 = .err → fails = true)
  | [], want => by
    unfold readFull
    by_cases hw : want = 0 <;> cases fails <;> simp [hw]
  | c :: cs, want => by
    have ih := readFull_spec (fails := fails) cs (want - c.length)
    unfold readFull
    by_cases hw : want = 0
    · simp [hw]
    rw [if_neg hw]
    by_cases hc : c.length ≤ want
    · rw [if_pos hc]
      obtain ⟨h1, h2, h3, h4, h5, h6⟩ := ih
      simp only
      refine ⟨?_, ?_, ?_, h4, h5, h6⟩
      · rw [List.append_assoc, h1]; rfl
      · simp; omega
      · intro e; have := h3 e; simp; omega
    · rw [if_neg hc]
      refine ⟨?_, ?_, ?_, ?_, ?_, ?_⟩
      · simp only [List.flatten_cons, ← List.append_assoc, List.take_append_drop]
      · simp; omega
      · simp; omega
      · simp
      · simp
      · simp

theorem fillLoop_spec {fails : Bool} : ∀ (fuel : Nat) (buf : Bytes) (off : Nat) (cs : List Bytes),
    off < buf.length → cs.flatten.length < fuel →
    (fails = false → ∃ buf', fillLoop fails fuel buf off cs = some (buf.take off ++ cs.flatten, buf')) ∧
    (fails = true → fillLoop fails fuel buf off cs = none)
  | 0, _, _, _, _, h => by omega
  | fuel + 1, buf, off, cs, hoff, hf => by
    obtain ⟨h1, h2, h3, h4, h5, h6⟩ := readFull_spec (fails := fails) cs (buf.length - off)
    unfold fillLoop
    generalize hr : readFull fails cs (buf.length - off) = r at *
    obtain ⟨d, rest, e⟩ := r
    simp only at *
    have htake : (buf.take off ++ d ++ buf.drop (off + d.length)).take (off + d.length) = buf.take off ++ d := by
      rw [List.take_append_of_le_length (by simp; omega), List.take_of_length_le (by simp; omega)]
    have hlen : (buf.take off ++ d ++ buf.drop (off + d.length)).length = buf.length := by simp; omega
    cases e with
    | eof =>
      have hn := h4 (by simp)
      subst hn
      simp only [List.flatten_nil, List.append_nil] at h1
      rw [htake, h5 rfl]
      simp only [h1]
      exact ⟨fun _ => ⟨_, rfl⟩, by simp⟩
    | err => simp [h6 rfl]
    | full =>
      have hd := h3 rfl
      have ih := fillLoop_spec (fails := fails) fuel
        (buf.take off ++ d ++ buf.drop (off + d.length) ++ List.replicate (buf.take off ++ d ++ buf.drop (off + d.length)).length 0)
        (off + d.length) rest (by rw [List.length_append, hlen, List.length_replicate]; omega) (by
          have := congrArg List.length h1
          rw [List.length_append] at this; omega)
      rw [List.take_append_of_le_length (by rw [hlen]; omega), htake] at ih
      simp only
      refine ⟨fun hx => ?_, ih.2⟩
      obtain ⟨b', hb'⟩ := ih.1 hx
      exact ⟨b', by rw [hb', List.append_assoc, h1]⟩

/-- **C41** (input) Reading a file for a search yields its whole content: for any way the reader cuts the
content into pieces, and whatever an earlier file left in the grepper's buffer (any non-empty
buffer, or none yet). -/
theorem fillFrom_whole (gbuf : Option Bytes) (chunks : List Bytes) (hg : ∀ b, gbuf = some b → b ≠ []) :
    ∃ gbuf', fillFrom gbuf ⟨chunks, false⟩ = some (chunks.flatten, gbuf') := by
  unfold fillFrom
  have hb : 0 < (match gbuf with
    | none => List.replicate (1 <<< 20) 0
    | some b => b).length := by
    cases gbuf with
    | none => simp only [List.length_replicate]; exact Nat.lt_of_lt_of_le Nat.zero_lt_one (by decide)
    | some b => exact List.length_pos_iff.2 (hg b rfl)
  obtain ⟨b', h⟩ := (fillLoop_spec (fails := false) (chunks.flatten.length + 1) _ 0 chunks hb
    (by omega)).1 rfl
  rw [List.take_zero, List.nil_append] at h
  exact ⟨b', h⟩

/-- **C41** A read error is reported, never a silently truncated content. -/
theorem fillFrom_error (gbuf : Option Bytes) (chunks : List Bytes) (hg : ∀ b, gbuf = some b → b ≠ []) :
    fillFrom gbuf ⟨chunks, true⟩ = none := by
  unfold fillFrom
  have hb : 0 < (match gbuf with
    | none => List.replicate (1 <<< 20) 0
    | some b => b).length := by
    cases gbuf with
    | none => simp only [List.length_replicate]; exact Nat.lt_of_lt_of_le Nat.zero_lt_one (by decide)
    | some b => exact List.length_pos_iff.2 (hg b rfl)
  exact (fillLoop_spec (fails := true) (chunks.flatten.length + 1) _ 0 chunks hb (by omega)).2 rfl

/-- Three pieces into a two-byte buffer with stale content. -/
example : (fillFrom (some b!"zz") ⟨[b!"hel", [], b!"lo wo", b!"rld"], false⟩).map (·.1) =
    some b!"hello world" := by decide

end Hound
