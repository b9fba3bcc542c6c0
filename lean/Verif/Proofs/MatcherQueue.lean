import Verif.Proofs.Automaton
import Verif.Proofs.Sparse

/-! Proofs about `addq`, `stepEmpty` and `stepByte`: closures under steps that read nothing. -/

namespace Hound
open Spec

/-- Where an instruction leads without reading, under the flags. -/
def succ (flag : EmptyOp) : Inst → List Nat
  | .capture out => [out]
  | .nop out => [out]
  | .alt out arg => [out, arg]
  | .altMatch out arg => [out, arg]
  | .empty op out => if op.sub flag then [out] else []
  | _ => []

def succs (p : Prog) (flag : EmptyOp) (id : Nat) : List Nat :=
  match p.inst[id]? with
  | some i => succ flag i
  | none => []

theorem addq_succ (p : Prog) (flag : EmptyOp) (fuel : Nat) (q : List Nat) (id : Nat) :
    addq p flag (fuel + 1) q id =
      if id ∈ q then q else (succs p flag id).foldl (addq p flag fuel) (q ++ [id]) := by
  rw [addq]
  split
  · rfl
  · unfold succs
    cases h : p.inst[id]? with
    | none => rfl
    | some i =>
      cases i <;> simp only [succ, List.foldl_nil, List.foldl_cons]
      split <;> simp_all

/-- Zero or more steps without reading. -/
inductive EpsStar (p : Prog) (flag : EmptyOp) : Nat → Nat → Prop
  | refl (a) : EpsStar p flag a a
  | tail {a b c} (h : EpsStar p flag a b) (s : c ∈ succs p flag b) : EpsStar p flag a c

theorem EpsStar.trans {p : Prog} {flag : EmptyOp} {a b c : Nat} (h : EpsStar p flag a b)
    (h2 : EpsStar p flag b c) : EpsStar p flag a c := by
  induction h2 with
  | refl => exact h
  | tail _ s ih => exact ih.tail s

theorem EpsStar.head {p : Prog} {flag : EmptyOp} {a b c : Nat} (s : b ∈ succs p flag a)
    (h2 : EpsStar p flag b c) : EpsStar p flag a c :=
  EpsStar.trans (EpsStar.tail (EpsStar.refl a) s) h2

/-- Duplicate-free sets of instruction numbers. -/
structure QOK (p : Prog) (q : List Nat) : Prop where
  nodup : q.Nodup
  bound : ∀ a ∈ q, a < p.inst.length

theorem QOK.length_le {p : Prog} {q : List Nat} (h : QOK p q) : q.length ≤ p.inst.length := by
  have := h.nodup.length_le_of_subset (l₂ := List.range p.inst.length)
    (fun a ha => List.mem_range.mpr (h.bound a ha))
  simpa using this

theorem QOK.nil (p : Prog) : QOK p [] := ⟨List.nodup_nil, by simp⟩

theorem QOK.snoc {p : Prog} {q : List Nat} {id : Nat} (h : QOK p q) (hid : id < p.inst.length)
    (hn : id ∉ q) : QOK p (q ++ [id]) := by
  refine ⟨?_, ?_⟩
  · rw [List.nodup_append]
    refine ⟨h.nodup, by simp, ?_⟩
    intro a ha b hb
    simp at hb
    rintro rfl
    exact hn (hb ▸ ha)
  · intro a ha
    rcases List.mem_append.mp ha with ha | ha
    · exact h.bound a ha
    · simp at ha; omega

theorem succs_lt {p : Prog} (hp : ProgOK p) {flag : EmptyOp} {a b : Nat} (h : b ∈ succs p flag a) :
    b < p.inst.length := by
  unfold succs at h
  split at h
  · rename_i i hi
    have hm := List.mem_of_getElem? hi
    apply hp.targets i hm
    cases i <;> simp [succ] at h ⊢ <;> first | exact h | exact h.2
  · simp at h

/-- What a call of `addq` (or a sequence of calls, with the ids `L`) achieves. -/
structure Added (p : Prog) (flag : EmptyOp) (q : List Nat) (L : List Nat) (r : List Nat) : Prop where
  ok : QOK p r
  sub : ∀ x ∈ q, x ∈ r
  ids : ∀ x ∈ L, x ∈ r
  sound : ∀ x ∈ r, x ∈ q ∨ ∃ id ∈ L, EpsStar p flag id x
  closed : ∀ x ∈ r, x ∉ q → ∀ y ∈ succs p flag x, y ∈ r

theorem foldl_addq_spec {p : Prog} {flag : EmptyOp} {fuel : Nat}
    (ih : ∀ q id, QOK p q → id < p.inst.length → p.inst.length - q.length < fuel →
      Added p flag q [id] (addq p flag fuel q id)) :
    ∀ (L q : List Nat), QOK p q → (∀ id ∈ L, id < p.inst.length) → p.inst.length - q.length < fuel →
      Added p flag q L (L.foldl (addq p flag fuel) q) := by
  intro L
  induction L with
  | nil =>
    intro q hq _ _
    exact ⟨hq, fun x h => h, by simp, fun x h => Or.inl h, fun x h hn => absurd h hn⟩
  | cons id L ihL =>
    intro q hq hL hf
    have h1 := ih q id hq (hL id List.mem_cons_self) hf
    have hlen := hq.nodup.length_le_of_subset (l₂ := addq p flag fuel q id) h1.sub
    have h2 := ihL (addq p flag fuel q id) h1.ok (fun a ha => hL a (List.mem_cons_of_mem _ ha)) (by omega)
    rw [List.foldl_cons]
    refine ⟨h2.ok, fun x h => h2.sub x (h1.sub x h), ?_, ?_, ?_⟩
    · intro x hx
      rcases List.mem_cons.mp hx with rfl | hx
      · exact h2.sub _ (h1.ids x (by simp))
      · exact h2.ids x hx
    · intro x hx
      rcases h2.sound x hx with h | ⟨i, hi, h⟩
      · rcases h1.sound x h with h' | ⟨i, hi, h'⟩
        · exact Or.inl h'
        · simp at hi; subst hi
          exact Or.inr ⟨i, List.mem_cons_self, h'⟩
      · exact Or.inr ⟨i, List.mem_cons_of_mem _ hi, h⟩
    · intro x hx hn y hy
      by_cases h : x ∈ addq p flag fuel q id
      · exact h2.sub _ (h1.closed x h hn y hy)
      · exact h2.closed x hx h y hy

theorem addq_spec {p : Prog} (hp : ProgOK p) (flag : EmptyOp) : ∀ (fuel : Nat) (q : List Nat) (id : Nat),
    QOK p q → id < p.inst.length → p.inst.length - q.length < fuel →
      Added p flag q [id] (addq p flag fuel q id) := by
  intro fuel
  induction fuel with
  | zero => intro q id _ _ h; omega
  | succ fuel ih =>
    intro q id hq hid hf
    rw [addq_succ]
    split
    · rename_i hm
      exact ⟨hq, fun x h => h, by simpa using hm, fun x h => Or.inl h, fun x h hn => absurd h hn⟩
    · rename_i hm
      have hq' := hq.snoc hid hm
      have hlen := hq'.length_le
      rw [List.length_append] at hlen
      simp only [List.length_singleton] at hlen
      have h := foldl_addq_spec ih (succs p flag id) (q ++ [id]) hq' (fun a ha => succs_lt hp ha)
        (by rw [List.length_append, List.length_singleton]; omega)
      refine ⟨h.ok, fun x hx => h.sub x (by simp [hx]), ?_, ?_, ?_⟩
      · intro x hx
        simp at hx; subst hx
        exact h.sub x (by simp)
      · intro x hx
        rcases h.sound x hx with h' | ⟨i, hi, h'⟩
        · rcases List.mem_append.mp h' with h' | h'
          · exact Or.inl h'
          · simp at h'; subst h'
            exact Or.inr ⟨x, by simp, EpsStar.refl x⟩
        · exact Or.inr ⟨id, by simp, EpsStar.head hi h'⟩
      · intro x hx hn y hy
        by_cases hxi : x = id
        · subst hxi; exact h.ids y hy
        · exact h.closed x hx (by simp [hn, hxi]) y hy

theorem foldl_addq {p : Prog} (hp : ProgOK p) (flag : EmptyOp) {L q : List Nat} (hq : QOK p q)
    (hL : ∀ id ∈ L, id < p.inst.length) :
    Added p flag q L (L.foldl (addq p flag p.fuel) q) :=
  foldl_addq_spec (fun q id h1 h2 h3 => addq_spec hp flag p.fuel q id h1 h2 h3) L q hq hL
    (by unfold Prog.fuel; omega)

/-- A result of adding to the empty queue is the closure. -/
theorem Added.mem_iff {p : Prog} {flag : EmptyOp} {L r : List Nat} (h : Added p flag [] L r) (x : Nat) :
    x ∈ r ↔ ∃ id ∈ L, EpsStar p flag id x := by
  constructor
  · intro hx
    rcases h.sound x hx with h' | h'
    · simp at h'
    · exact h'
  · rintro ⟨id, hid, hs⟩
    induction hs with
    | refl => exact h.ids id hid
    | tail _ s ih => exact h.closed _ ih (by simp) _ s

theorem stepEmpty_ok {p : Prog} (hp : ProgOK p) {flag : EmptyOp} {q : List Nat} (hq : QOK p q) :
    QOK p (stepEmpty p q flag) ∧ ∀ x, x ∈ stepEmpty p q flag ↔ ∃ id ∈ q, EpsStar p flag id x := by
  have h := foldl_addq hp flag (QOK.nil p) hq.bound
  exact ⟨h.ok, fun x => h.mem_iff x⟩

/-- Where the byte (or the end of text) leads from an instruction. -/
def byteOuts (p : Prog) (c : Option UInt8) (id : Nat) : List Nat :=
  match p.inst[id]?, c with
  | some (.byteRange lo hi fold out), some b => if inByteRange lo hi fold b then [out] else []
  | _, _ => []

theorem stepByte1_eq (p : Prog) (c : Option UInt8) (flag : EmptyOp) (acc : List Nat × Bool) (id : Nat) :
    stepByte1 p c flag acc id =
      ((byteOuts p c id).foldl (addq p flag p.fuel) acc.1, acc.2 || decide (p.inst[id]? = some .accept)) := by
  unfold stepByte1 byteOuts
  cases h : p.inst[id]? with
  | none => simp
  | some i =>
    cases i <;> cases c <;> simp <;> try rfl
    split <;> simp_all

theorem stepByte_eq (p : Prog) (c : Option UInt8) (flag : EmptyOp) (q : List Nat) :
    stepByte p q c flag =
      ((p.start :: q.flatMap (byteOuts p c)).foldl (addq p flag p.fuel) [],
        q.any (fun id => decide (p.inst[id]? = some .accept))) := by
  unfold stepByte
  have go : ∀ (q : List Nat) (acc : List Nat × Bool), q.foldl (stepByte1 p c flag) acc =
      ((q.flatMap (byteOuts p c)).foldl (addq p flag p.fuel) acc.1,
        acc.2 || q.any (fun id => decide (p.inst[id]? = some .accept))) := by
    intro q
    induction q with
    | nil => intro acc; simp
    | cons id q ih =>
      intro acc
      rw [List.foldl_cons, ih, stepByte1_eq]
      simp [List.foldl_append, Bool.or_assoc]
  rw [go]
  simp

theorem byteOuts_lt {p : Prog} (hp : ProgOK p) {c : Option UInt8} {a b : Nat} (h : b ∈ byteOuts p c a) :
    b < p.inst.length := by
  unfold byteOuts at h
  split at h
  · rename_i lo hi fold out x hi' 
    have hm := List.mem_of_getElem? hi'
    split at h
    · exact hp.targets _ hm _ (by simpa using h)
    · simp at h
  · simp at h

theorem stepByte_ok {p : Prog} (hp : ProgOK p) {flag : EmptyOp} {c : Option UInt8} {q : List Nat} :
    QOK p (stepByte p q c flag).1 ∧
    (∀ x, x ∈ (stepByte p q c flag).1 ↔
      ∃ id, (id = p.start ∨ ∃ a ∈ q, id ∈ byteOuts p c a) ∧ EpsStar p flag id x) ∧
    ((stepByte p q c flag).2 = true ↔ ∃ id ∈ q, p.inst[id]? = some .accept) := by
  rw [stepByte_eq]
  have h := foldl_addq hp flag (L := p.start :: q.flatMap (byteOuts p c)) (QOK.nil p) (by
    intro id hid
    rcases List.mem_cons.mp hid with rfl | hid
    · exact hp.start
    · obtain ⟨a, _, ha⟩ := List.mem_flatMap.mp hid
      exact byteOuts_lt hp ha)
  refine ⟨h.ok, ?_, ?_⟩
  · intro x
    rw [h.mem_iff x]
    simp [List.mem_flatMap]
  · simp

end Hound
