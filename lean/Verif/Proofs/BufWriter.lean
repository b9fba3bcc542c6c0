import Verif.Model.BufWriter

namespace Hound
namespace BufWriter

/-- Everything written so far. -/
def contents (b : BufWriter) : Bytes := b.file ++ b.buf

/-- The in-memory buffer never outgrows its capacity. -/
def Fits (b : BufWriter) : Prop := b.buf.length ≤ b.cap

@[simp] theorem contents_create {cap} : (create cap).contents = [] := rfl
@[simp] theorem cap_create {cap} : (create cap).cap = cap := rfl

@[simp] theorem contents_flush {b : BufWriter} : b.flush.contents = b.contents := by
  unfold flush contents; split <;> simp

@[simp] theorem cap_flush {b : BufWriter} : b.flush.cap = b.cap := by
  unfold flush; split <;> rfl

theorem buf_flush {b : BufWriter} : b.flush.buf = [] := by
  unfold flush; split
  · rename_i h; simpa using h
  · rfl

@[simp] theorem finish_eq {b : BufWriter} : b.finish = b.contents := by
  have := contents_flush (b := b)
  unfold contents at this
  rw [buf_flush, List.append_nil] at this
  exact this

theorem contents_push {b : BufWriter} {x : Bytes} :
    ({ b with buf := b.buf ++ x } : BufWriter).contents = b.contents ++ x := by
  simp [contents]

@[simp] theorem contents_write {b : BufWriter} {x : Bytes} : (b.write x).contents = b.contents ++ x := by
  unfold write
  split
  · simp only
    split
    · have h := contents_flush (b := b)
      unfold contents at h ⊢
      rw [buf_flush] at h ⊢
      simp only [List.append_nil] at h ⊢
      rw [h]
    · rw [contents_push, contents_flush]
  · exact contents_push

theorem ite_flush {b : BufWriter} {p : Prop} [Decidable p] :
    (if p then b.flush else b).contents = b.contents := by split <;> simp

@[simp] theorem contents_writeByte {b : BufWriter} {x : UInt8} :
    (b.writeByte x).contents = b.contents ++ [x] := by
  unfold writeByte; rw [contents_push, ite_flush]
@[simp] theorem contents_writeTrigram {b : BufWriter} {t : Nat} :
    (b.writeTrigram t).contents = b.contents ++ putTrigram t := by
  unfold writeTrigram; rw [contents_push, ite_flush]
@[simp] theorem contents_writeUint32 {b : BufWriter} {t : Nat} :
    (b.writeUint32 t).contents = b.contents ++ putUint32 t := by
  unfold writeUint32; rw [contents_push, ite_flush]
@[simp] theorem contents_writeUvarint {b : BufWriter} {t : Nat} :
    (b.writeUvarint t).contents = b.contents ++ putUvarint t := by
  unfold writeUvarint; rw [contents_push, ite_flush]

@[simp] theorem contents_copyFile {b src : BufWriter} :
    (b.copyFile src).contents = b.contents ++ src.contents := by
  have h := contents_flush (b := b)
  unfold copyFile
  simp only [finish_eq]
  unfold contents at h ⊢
  rw [buf_flush] at h ⊢
  simp only [List.append_nil] at h ⊢
  rw [h]

theorem offset_eq {b : BufWriter} :
    b.offset = if b.contents.length < 2 ^ 32 then some b.contents.length else none := by
  simp [offset, contents]

theorem putUvarint_length_le (x : Nat) : (putUvarint x).length ≤ 5 := by
  unfold putUvarint; repeat' split
  all_goals simp

/-- The bytes a call appends. -/
def Call.bytes : Call → Bytes
  | .write x => x
  | .writeByte x => [x]
  | .writeTrigram t => putTrigram t
  | .writeUint32 x => putUint32 x
  | .writeUvarint x => putUvarint x
  | .flush => []
  | .copyFile src => src.contents

theorem contents_call {b : BufWriter} (c : Call) : (b.call c).contents = b.contents ++ c.bytes := by
  cases c <;> simp [call, Call.bytes]

theorem contents_run {b : BufWriter} (cs : List Call) :
    (b.run cs).contents = b.contents ++ cs.flatMap Call.bytes := by
  induction cs generalizing b with
  | nil => simp [run]
  | cons c cs ih => rw [run, ih, contents_call]; simp

theorem cap_call {b : BufWriter} (c : Call) : (b.call c).cap = b.cap := by
  cases c <;> simp only [call, write, writeByte, writeTrigram, writeUint32, writeUvarint, copyFile] <;>
    repeat' split
  all_goals simp

theorem fits_flush {b : BufWriter} : b.flush.Fits := by simp [Fits, buf_flush]

theorem fits_call {b : BufWriter} (hb : b.Fits) (hc : 5 ≤ b.cap) (c : Call) : (b.call c).Fits := by
  unfold Fits at *
  have hf := buf_flush (b := b)
  cases c with
  | write x =>
    simp only [call, write]
    split
    · split
      · simp [hf]
      · simp only [hf, List.nil_append, cap_flush] at *; omega
    · simp only [List.length_append]; omega
  | writeByte x =>
    simp only [call, writeByte]
    split <;> simp [hf] <;> omega
  | writeTrigram t =>
    simp only [call, writeTrigram]
    split <;> simp [hf, putTrigram] <;> omega
  | writeUint32 t =>
    simp only [call, writeUint32]
    split <;> simp [hf, putUint32] <;> omega
  | writeUvarint t =>
    have := putUvarint_length_le t
    simp only [call, writeUvarint]
    split <;> simp [hf] <;> omega
  | flush => simp [call, hf]
  | copyFile src => simp [call, copyFile, hf]

end BufWriter
end Hound
