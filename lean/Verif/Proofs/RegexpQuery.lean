import Verif.Model.RegexpQuery
import Verif.Proofs.ThreeByte

/-! # Soundness of the trigram query of a regular expression -/

namespace Hound
open Spec Query RegexpInfo

/-- Well-formed query: ALL/NONE are leaves, no empty AND, trigrams have three bytes. -/
def GoodQ (q : Query) : Prop := LeafyH q ∧ NoEmptyAnd q ∧ ThreeByte q

theorem goodQ_all : GoodQ allQ := by
  refine ⟨leafyH_iff.2 ?_, noEmptyAnd_iff.2 ?_, threeByte_iff.2 ?_⟩ <;> simp [allQ, Query.op, Query.trigram, Query.sub]
theorem goodQ_none : GoodQ noneQ := by
  refine ⟨leafyH_iff.2 ?_, noEmptyAnd_iff.2 ?_, threeByte_iff.2 ?_⟩ <;> simp [noneQ, Query.op, Query.trigram, Query.sub]

theorem goodQ_and {q r : Query} (hq : GoodQ q) (hr : GoodQ r) : GoodQ (q.and r) :=
  ⟨(andOrF_sem (fun _ => True) _ q r .and (Or.inl rfl) hq.1 hr.1).1,
   noEmptyAnd_andOrF _ q r .and (Or.inl rfl) (by omega) hq.2.1 hr.2.1,
   threeByte_andOrF _ _ _ _ hq.2.2 hr.2.2⟩

theorem goodQ_or {q r : Query} (hq : GoodQ q) (hr : GoodQ r) : GoodQ (q.or r) :=
  ⟨(andOrF_sem (fun _ => True) _ q r .or (Or.inr rfl) hq.1 hr.1).1,
   noEmptyAnd_andOrF _ q r .or (Or.inr rfl) (by omega) hq.2.1 hr.2.1,
   threeByte_andOrF _ _ _ _ hq.2.2 hr.2.2⟩

theorem sat_qand {T : Bytes → Prop} {q r : Query} (hq : GoodQ q) (hr : GoodQ r) :
    Sat T (q.and r) ↔ Sat T q ∧ Sat T r :=
  (andOrF_sem T _ q r .and (Or.inl rfl) hq.1 hr.1).2

theorem sat_qor {T : Bytes → Prop} {q r : Query} (hq : GoodQ q) (hr : GoodQ r) :
    Sat T (q.or r) ↔ Sat T q ∨ Sat T r :=
  (andOrF_sem T _ q r .or (Or.inr rfl) hq.1 hr.1).2

theorem windows3_ne_nil {s : Bytes} (h : 3 ≤ s.length) : windows3 s ≠ [] := by
  match s with
  | [] => simp at h
  | [_] => simp at h
  | [_, _] => simp at h
  | _ :: _ :: _ :: _ => simp [windows3]

theorem mem_windows3 {t : Bytes} : ∀ {s : Bytes}, t ∈ windows3 s ↔ HasTrigram s t := by
  intro s
  induction s with
  | nil =>
    simp only [windows3, List.not_mem_nil, false_iff]
    rintro ⟨h, a, b, hab⟩
    have := congrArg List.length hab; simp at this; omega
  | cons x s ih =>
    match s with
    | [] =>
      simp only [windows3, List.not_mem_nil, false_iff]
      rintro ⟨h, a, b, hab⟩
      have := congrArg List.length hab; simp at this; omega
    | [y] =>
      simp only [windows3, List.not_mem_nil, false_iff]
      rintro ⟨h, a, b, hab⟩
      have := congrArg List.length hab; simp at this; omega
    | y :: z :: s =>
      simp only [windows3, List.mem_cons, ih]
      constructor
      · rintro (rfl | ⟨h, a, b, hab⟩)
        · exact ⟨rfl, [], s, rfl⟩
        · exact ⟨h, x :: a, b, by rw [hab]; rfl⟩
      · rintro ⟨h, a, b, hab⟩
        cases a with
        | nil =>
          left
          match t, h with
          | [p, q, r], _ => simp at hab; simp [hab]
        | cons p a =>
          right
          simp only [List.cons_append, List.cons.injEq] at hab
          exact ⟨h, a, b, hab.2⟩

theorem windows3_mono {a s b t : Bytes} (h : t ∈ windows3 s) : t ∈ windows3 (a ++ s ++ b) := by
  rw [mem_windows3] at *
  obtain ⟨h, c, d, hcd⟩ := h
  exact ⟨h, a ++ c, d ++ b, by rw [hcd]; simp⟩

theorem orTrigrams_spec {T : Bytes → Prop} : ∀ (ts : List Bytes) (o : Query), GoodQ o →
    (∀ t ∈ ts, 3 ≤ t.length) →
    GoodQ (orTrigrams o ts) ∧
    (Sat T (orTrigrams o ts) ↔ Sat T o ∨ ∃ x ∈ ts, ∀ w ∈ windows3 x, T w) := by
  intro ts
  induction ts with
  | nil => intro o ho _; simp [orTrigrams, ho]
  | cons t ts ih =>
    intro o ho hl
    have hne : cleanSet false (windows3 t) ≠ [] := by
      obtain ⟨x, hx⟩ := List.exists_mem_of_ne_nil _ (windows3_ne_nil (hl t (by simp)))
      intro h
      have := mem_cleanSet (b := false).2 hx
      rw [h] at this; simp at this
    have hn : GoodQ (.mk .and (cleanSet false (windows3 t)) []) := by
      refine ⟨leafyH_iff.2 ?_, noEmptyAnd_mk.2 ?_, threeByte_mk.2 ⟨?_, by simp⟩⟩
      · simp [Query.op, Query.sub]
      · simp [hne]
      · intro x hx
        rw [mem_cleanSet, mem_windows3] at hx
        exact hx.1
    obtain ⟨i1, i2⟩ := ih (o.or (.mk .and (cleanSet false (windows3 t)) [])) (goodQ_or ho hn)
      (fun x hx => hl x (by simp [hx]))
    refine ⟨i1, i2.trans ?_⟩
    rw [sat_qor ho hn, sat_and]
    simp [mem_cleanSet, or_assoc]

theorem goodQ_andTrigrams {q : Query} (hq : GoodQ q) (t : List Bytes) : GoodQ (q.andTrigrams t) := by
  unfold Query.andTrigrams
  split
  · exact hq
  · rename_i h
    exact goodQ_and hq (orTrigrams_spec (T := fun _ => True) t noneQ goodQ_none
      (fun x hx => by have := minLen_le hx; omega)).1

theorem sat_andTrigrams {T : Bytes → Prop} {q : Query} (hq : GoodQ q) {t : List Bytes} {x : Bytes}
    (hx : x ∈ t) (hT : ∀ w ∈ windows3 x, T w) (hs : Sat T q) : Sat T (q.andTrigrams t) := by
  unfold Query.andTrigrams
  split
  · exact hs
  · rename_i h
    obtain ⟨i1, i2⟩ := orTrigrams_spec (T := T) t noneQ goodQ_none
      (fun x hx => by have := minLen_le hx; omega)
    rw [sat_qand hq i1]
    exact ⟨hs, i2.2 (Or.inr ⟨x, hx, hT⟩)⟩

/-! ## Soundness of an analysis result for one matched string -/

/-- What `info` claims is true of the string `s`: it is one of the exact strings, or starts and ends as
listed; and everything containing `s` satisfies the query. -/
structure SoundFor (info : RegexpInfo) (s : Bytes) : Prop where
  ex : ∀ e, info.exact = some e → s ∈ e
  pre : info.exact = none → ∃ p ∈ info.pre, p <+: s
  suf : info.exact = none → ∃ u ∈ info.suf, u <:+ s
  mat : ∀ T : Bytes → Prop, (∀ w ∈ windows3 s, T w) → Sat T info.mat

theorem prefix_cut {n : Nat} {p : Bytes} : cut false n p <+: p := by
  unfold cut; split
  · exact List.take_prefix _ _
  · exact List.prefix_refl _

theorem suffix_cut {n : Nat} {p : Bytes} : cut true n p <:+ p := by
  unfold cut; split
  · simp only [if_true]; exact List.drop_suffix _ _
  · exact List.suffix_refl _

/-- `a` is a prefix (suffix) of `s`. -/
def Affix (isSuffix : Bool) (a s : Bytes) : Prop := if isSuffix then a <:+ s else a <+: s

theorem Affix.trans {b : Bool} {x y z : Bytes} (h1 : Affix b x y) (h2 : Affix b y z) : Affix b x z := by
  cases b
  · exact List.IsPrefix.trans h1 h2
  · exact List.IsSuffix.trans h1 h2

theorem affix_cut {b : Bool} {n : Nat} {p : Bytes} : Affix b (cut b n p) p := by
  cases b
  · exact prefix_cut
  · exact suffix_cut

theorem hasAffix_iff {b : Bool} {s l : Bytes} : hasAffix b s l = true ↔ Affix b l s := by
  cases b <;> simp [hasAffix, Affix]

theorem windows3_affix {b : Bool} {p s t : Bytes} (h : Affix b p s) (ht : t ∈ windows3 p) :
    t ∈ windows3 s := by
  cases b
  · obtain ⟨c, rfl⟩ := h; exact windows3_mono (a := []) ht
  · obtain ⟨c, rfl⟩ := h; simpa using windows3_mono (a := c) (b := []) ht

theorem shortenLoop_sound {b : Bool} {s : Bytes} : ∀ (n : Nat) (t : List Bytes),
    (∃ p ∈ t, Affix b p s) → ∃ p ∈ shortenLoop b n t, Affix b p s := by
  intro n
  induction n with
  | zero => intro t h; exact h
  | succ n ih =>
    intro t h
    simp only [shortenLoop]
    split
    · apply ih
      obtain ⟨p, hp, ha⟩ := h
      refine ⟨cut b (n + 1) p, ?_, affix_cut.trans ha⟩
      rw [mem_cleanSet, mem_compactEq_none]
      exact List.mem_map_of_mem hp
    · exact h

theorem dropRedundant_sound {b : Bool} {s : Bytes} : ∀ (t : List Bytes) (last : Option Bytes),
    (∃ p ∈ t, Affix b p s) →
    (∃ p ∈ dropRedundant b last t, Affix b p s) ∨ (∃ l, last = some l ∧ Affix b l s) := by
  intro t
  induction t with
  | nil => intro last h; simp at h
  | cons x t ih =>
    intro last h
    obtain ⟨p, hp, ha⟩ := h
    have keep : (∃ p ∈ x :: dropRedundant b (some x) t, Affix b p s) := by
      rcases List.mem_cons.1 hp with rfl | hp
      · exact ⟨p, by simp, ha⟩
      · rcases ih (some x) ⟨p, hp, ha⟩ with ⟨q, hq, hqa⟩ | ⟨l, hl, hla⟩
        · exact ⟨q, by simp [hq], hqa⟩
        · cases hl; exact ⟨x, by simp, hla⟩
    cases last with
    | none => left; simpa only [dropRedundant] using keep
    | some l =>
      simp only [dropRedundant]
      split
      · rename_i h
        rw [hasAffix_iff] at h
        rcases List.mem_cons.1 hp with rfl | hp
        · right; exact ⟨l, rfl, h.trans ha⟩
        · exact ih (some l) ⟨p, hp, ha⟩
      · left; exact keep

theorem simplifySet_good {b : Bool} {q : Query} {t : List Bytes} (hq : GoodQ q) :
    GoodQ (simplifySet b q t).1 := goodQ_andTrigrams hq _

theorem simplifySet_sound {b : Bool} {q : Query} {t : List Bytes} {s : Bytes} (hq : GoodQ q)
    (h : ∃ p ∈ t, Affix b p s) (hm : ∀ T : Bytes → Prop, (∀ w ∈ windows3 s, T w) → Sat T q) :
    (∃ p ∈ (simplifySet b q t).2, Affix b p s) ∧
    (∀ T : Bytes → Prop, (∀ w ∈ windows3 s, T w) → Sat T (simplifySet b q t).1) := by
  have h' : ∃ p ∈ cleanSet b t, Affix b p s := by
    obtain ⟨p, hp, ha⟩ := h; exact ⟨p, mem_cleanSet.2 hp, ha⟩
  constructor
  · rcases dropRedundant_sound _ none (shortenLoop_sound 3 _ h') with h | ⟨l, hl, _⟩
    · exact h
    · simp at hl
  · intro T hT
    obtain ⟨p, hp, ha⟩ := h'
    exact sat_andTrigrams hq hp (fun w hw => hT w (windows3_affix ha hw)) (hm T hT)

theorem simplifySets_good {i : RegexpInfo} (h : GoodQ i.mat) : GoodQ (simplifySets i).mat :=
  simplifySet_good (simplifySet_good h)

theorem simplifySets_sound {i : RegexpInfo} {s : Bytes} (h : GoodQ i.mat) (he : i.exact = none)
    (hs : SoundFor i s) : SoundFor (simplifySets i) s := by
  obtain ⟨a, b⟩ := simplifySet_sound (b := false) (s := s) h (hs.pre he) hs.mat
  obtain ⟨c, d⟩ := simplifySet_sound (b := true) (s := s)
    (simplifySet_good (b := false) (t := i.pre) h) (hs.suf he) b
  exact ⟨by simp [simplifySets, he], fun _ => a, fun _ => c, d⟩

theorem prefix_head2 {s : Bytes} : head2 s <+: s := by
  unfold head2; split
  · exact List.prefix_refl _
  · exact List.take_prefix _ _

theorem suffix_tail2 {s : Bytes} : tail2 s <:+ s := by
  unfold tail2; split
  · exact List.suffix_refl _
  · exact List.drop_suffix _ _

theorem addExact_good {i : RegexpInfo} (h : GoodQ i.mat) : GoodQ (addExact i).mat := by
  unfold addExact; split
  · exact goodQ_andTrigrams h _
  · exact h

theorem addExact_sound {i : RegexpInfo} {s : Bytes} (h : GoodQ i.mat) (hs : SoundFor i s) :
    SoundFor (addExact i) s := by
  unfold addExact; split
  · rename_i e he
    exact ⟨hs.ex, hs.pre, hs.suf, fun T hT => sat_andTrigrams h (hs.ex e he) hT (hs.mat T hT)⟩
  · exact hs

theorem simplify_good {i : RegexpInfo} (h : GoodQ i.mat) (f : Bool) : GoodQ (simplify i f).mat := by
  unfold simplify; split
  · simp only []
    split
    · apply simplifySets_good
      exact goodQ_andTrigrams h _
    · exact h
  · exact simplifySets_good h

theorem simplify_sound {i : RegexpInfo} {s : Bytes} (h : GoodQ i.mat) (f : Bool)
    (hs : SoundFor i s) : SoundFor (simplify i f) s := by
  unfold simplify; split
  · rename_i e he
    have hm : s ∈ cleanSet false e := mem_cleanSet.2 (hs.ex e he)
    simp only []
    split
    · apply simplifySets_sound
      · exact goodQ_andTrigrams h _
      · rfl
      · refine ⟨by simp, fun _ => ?_, fun _ => ?_, ?_⟩
        · exact ⟨head2 s, by simp only [List.mem_append]; right; exact List.mem_map_of_mem hm,
            prefix_head2⟩
        · exact ⟨tail2 s, by simp only [List.mem_append]; right; exact List.mem_map_of_mem hm,
            suffix_tail2⟩
        · intro T hT
          exact sat_andTrigrams h hm hT (hs.mat T hT)
    · exact ⟨by intro e' he'; cases he'; exact hm, by simp, by simp, hs.mat⟩
  · rename_i he; exact simplifySets_sound h he hs

theorem concat_good {x y : RegexpInfo} (hx : GoodQ x.mat) (hy : GoodQ y.mat) :
    GoodQ (RegexpInfo.concat x y).mat := by
  unfold RegexpInfo.concat
  apply simplify_good
  have := goodQ_and hx hy
  split
  · exact this
  · exact this
  · exact this
  · simp only []; split
    · exact goodQ_andTrigrams this _
    · exact this

theorem concat_sound {x y : RegexpInfo} {a b : Bytes} (hx : GoodQ x.mat) (hy : GoodQ y.mat)
    (sx : SoundFor x a) (sy : SoundFor y b) : SoundFor (RegexpInfo.concat x y) (a ++ b) := by
  unfold RegexpInfo.concat
  have hg := goodQ_and hx hy
  have hm : ∀ T : Bytes → Prop, (∀ w ∈ windows3 (a ++ b), T w) → Sat T (x.mat.and y.mat) := by
    intro T hT
    rw [sat_qand hx hy]
    refine ⟨sx.mat T fun w hw => hT w ?_, sy.mat T fun w hw => hT w ?_⟩
    · simpa using windows3_mono (a := []) (b := b) hw
    · simpa using windows3_mono (a := a) (b := []) hw
  have hpx : x.exact = none → ∃ p ∈ (if x.canEmpty then unionSet x.pre y.pre false else x.pre),
      p <+: a ++ b := by
    intro hx0
    obtain ⟨p, hp, hpa⟩ := sx.pre hx0
    refine ⟨p, ?_, hpa.trans (List.prefix_append _ _)⟩
    split
    · exact mem_unionSet.2 (Or.inl hp)
    · exact hp
  have hsy : y.exact = none → ∃ u ∈ (if y.canEmpty then unionSet y.suf x.suf true else y.suf),
      u <:+ a ++ b := by
    intro hy0
    obtain ⟨p, hp, hpa⟩ := sy.suf hy0
    refine ⟨p, ?_, hpa.trans (List.suffix_append _ _)⟩
    split
    · exact mem_unionSet.2 (Or.inl hp)
    · exact hp
  split
  · rename_i ea eb hea heb
    refine simplify_sound hg _ ⟨?_, by simp, by simp, hm⟩
    intro e he; cases he
    exact mem_crossSet.2 ⟨a, sx.ex _ hea, b, sy.ex _ heb, rfl⟩
  · rename_i ea hea heb
    refine simplify_sound hg _ ⟨by simp, fun _ => ?_, fun _ => hsy heb, hm⟩
    obtain ⟨p, hp, t, rfl⟩ := sy.pre heb
    exact ⟨a ++ p, mem_crossSet.2 ⟨a, sx.ex _ hea, p, hp, rfl⟩, t, by simp⟩
  · rename_i eb hea heb
    refine simplify_sound hg _ ⟨by simp, fun _ => hpx hea, fun _ => ?_, hm⟩
    obtain ⟨p, hp, t, rfl⟩ := sx.suf hea
    exact ⟨p ++ b, mem_crossSet.2 ⟨p, hp, b, sy.ex _ heb, rfl⟩, t, by simp⟩
  · rename_i hea heb
    refine simplify_sound ?_ _ ⟨by simp, fun _ => hpx hea, fun _ => hsy heb, ?_⟩
    · simp only []; split
      · exact goodQ_andTrigrams hg _
      · exact hg
    · intro T hT
      simp only []; split
      · obtain ⟨p, hp, t, ht⟩ := sx.suf hea
        obtain ⟨u, hu, v, hv⟩ := sy.pre heb
        refine sat_andTrigrams hg (mem_crossSet.2 ⟨p, hp, u, hu, rfl⟩) ?_ (hm T hT)
        intro w hw
        apply hT
        have := windows3_mono (a := t) (b := v) hw
        rw [← ht, ← hv]
        simpa using this
      · exact hm T hT

theorem alternate_good {x y : RegexpInfo} (hx : GoodQ x.mat) (hy : GoodQ y.mat) :
    GoodQ (RegexpInfo.alternate x y).mat := by
  unfold RegexpInfo.alternate
  apply simplify_good
  split
  · exact goodQ_or hx hy
  · exact goodQ_or (addExact_good hx) hy
  · exact goodQ_or hx (addExact_good hy)
  · exact goodQ_or hx hy

theorem alternate_sound {x y : RegexpInfo} {s : Bytes} (hx : GoodQ x.mat) (hy : GoodQ y.mat)
    (h : SoundFor x s ∨ SoundFor y s) : SoundFor (RegexpInfo.alternate x y) s := by
  unfold RegexpInfo.alternate
  split
  · rename_i ea eb hea heb
    refine simplify_sound (goodQ_or hx hy) _ ⟨?_, by simp, by simp, ?_⟩
    · intro e he; cases he
      rcases h with h | h
      · exact mem_unionSet.2 (Or.inl (h.ex _ hea))
      · exact mem_unionSet.2 (Or.inr (h.ex _ heb))
    · intro T hT
      exact (sat_qor hx hy).2 (h.imp (fun h => h.mat T hT) (fun h => h.mat T hT))
  · rename_i ea hea heb
    refine simplify_sound (goodQ_or (addExact_good hx) hy) _
      ⟨by simp, fun _ => ?_, fun _ => ?_, ?_⟩
    · rcases h with h | h
      · exact ⟨s, mem_unionSet.2 (Or.inl (h.ex _ hea)), List.prefix_refl _⟩
      · obtain ⟨p, hp, hps⟩ := h.pre heb
        exact ⟨p, mem_unionSet.2 (Or.inr hp), hps⟩
    · rcases h with h | h
      · exact ⟨s, mem_unionSet.2 (Or.inl (h.ex _ hea)), List.suffix_refl _⟩
      · obtain ⟨p, hp, hps⟩ := h.suf heb
        exact ⟨p, mem_unionSet.2 (Or.inr hp), hps⟩
    · intro T hT
      exact (sat_qor (addExact_good hx) hy).2
        (h.imp (fun h => (addExact_sound hx h).mat T hT) (fun h => h.mat T hT))
  · rename_i eb hea heb
    refine simplify_sound (goodQ_or hx (addExact_good hy)) _
      ⟨by simp, fun _ => ?_, fun _ => ?_, ?_⟩
    · rcases h with h | h
      · obtain ⟨p, hp, hps⟩ := h.pre hea
        exact ⟨p, mem_unionSet.2 (Or.inl hp), hps⟩
      · exact ⟨s, mem_unionSet.2 (Or.inr (h.ex _ heb)), List.prefix_refl _⟩
    · rcases h with h | h
      · obtain ⟨p, hp, hps⟩ := h.suf hea
        exact ⟨p, mem_unionSet.2 (Or.inl hp), hps⟩
      · exact ⟨s, mem_unionSet.2 (Or.inr (h.ex _ heb)), List.suffix_refl _⟩
    · intro T hT
      exact (sat_qor hx (addExact_good hy)).2
        (h.imp (fun h => h.mat T hT) (fun h => (addExact_sound hy h).mat T hT))
  · rename_i hea heb
    refine simplify_sound (goodQ_or hx hy) _ ⟨by simp, fun _ => ?_, fun _ => ?_, ?_⟩
    · rcases h with h | h
      · obtain ⟨p, hp, hps⟩ := h.pre hea
        exact ⟨p, mem_unionSet.2 (Or.inl hp), hps⟩
      · obtain ⟨p, hp, hps⟩ := h.pre heb
        exact ⟨p, mem_unionSet.2 (Or.inr hp), hps⟩
    · rcases h with h | h
      · obtain ⟨p, hp, hps⟩ := h.suf hea
        exact ⟨p, mem_unionSet.2 (Or.inl hp), hps⟩
      · obtain ⟨p, hp, hps⟩ := h.suf heb
        exact ⟨p, mem_unionSet.2 (Or.inr hp), hps⟩
    · intro T hT
      exact (sat_qor hx hy).2 (h.imp (fun h => h.mat T hT) (fun h => h.mat T hT))

/-! ## Base cases -/

theorem sat_allQ {T : Bytes → Prop} : Sat T allQ := by simp [allQ, Sat]

theorem emptyString_sound : SoundFor emptyString [] :=
  ⟨by intro e he; cases he; simp, by simp [emptyString], by simp [emptyString], fun _ _ => sat_allQ⟩

theorem anyChar_sound (s : Bytes) : SoundFor RegexpInfo.anyChar s :=
  ⟨by simp [RegexpInfo.anyChar], fun _ => ⟨[], by simp [RegexpInfo.anyChar], List.nil_prefix⟩,
    fun _ => ⟨[], by simp [RegexpInfo.anyChar], List.nil_suffix⟩, fun _ _ => sat_allQ⟩

theorem anyMatch_sound (s : Bytes) : SoundFor anyMatch s :=
  ⟨by simp [anyMatch], fun _ => ⟨[], by simp [anyMatch], List.nil_prefix⟩,
    fun _ => ⟨[], by simp [anyMatch], List.nil_suffix⟩, fun _ _ => sat_allQ⟩

theorem analyzeClass_good (ranges : List (Rune × Rune)) : GoodQ (analyzeClass ranges).mat := by
  unfold analyzeClass
  split
  · exact goodQ_none
  split
  · exact goodQ_all
  · exact simplify_good goodQ_all _

theorem analyzeClass_sound {ranges : List (Rune × Rune)} {p : Rune × Rune} {r : Rune}
    (hp : p ∈ ranges) (h1 : p.1 ≤ r) (h2 : r ≤ p.2) : SoundFor (analyzeClass ranges) (encodeRune r) := by
  unfold analyzeClass
  split
  · rename_i h; rw [h] at hp; simp at hp
  split
  · exact anyChar_sound _
  · refine simplify_sound goodQ_all _ ⟨?_, by simp, by simp, fun _ _ => sat_allQ⟩
    intro e he; cases he
    simp only [classStrings, List.mem_flatMap, List.mem_map, List.mem_range'_1]
    exact ⟨p, hp, r, ⟨h1, by
      have : p.1 ≤ p.2 := Nat.le_trans h1 h2
      rw [Nat.add_sub_cancel' (Nat.le_succ_of_le this)]; exact Nat.lt_succ_of_le h2⟩, rfl⟩

theorem analyzeFold1_sound {orbit : Rune → List Rune} {r r' : Rune} (h : FoldsTo orbit true r r') :
    SoundFor (analyzeFold1 orbit r) (encodeRune r') := by
  unfold analyzeFold1
  refine analyzeClass_sound (p := (r', r')) ?_ (Nat.le_refl _) (Nat.le_refl _)
  rcases h with rfl | ⟨_, h⟩
  · simp
  · simp only [List.mem_cons, List.mem_map]
    exact Or.inr ⟨r', h, rfl⟩

theorem analyzeFoldList (orbit : Rune → List Rune) (rs : List Rune) : ∀ (i : RegexpInfo),
    GoodQ i.mat →
    GoodQ (rs.foldl (fun info r => RegexpInfo.concat info (analyzeFold1 orbit r)) i).mat ∧
    ∀ (s : Bytes) (rs' : List Rune), SoundFor i s → rs.length = rs'.length →
      (∀ p ∈ rs.zip rs', FoldsTo orbit true p.1 p.2) →
      SoundFor (rs.foldl (fun info r => RegexpInfo.concat info (analyzeFold1 orbit r)) i)
        (s ++ encodeRunes rs') := by
  induction rs with
  | nil =>
    intro i hi
    refine ⟨hi, ?_⟩
    intro s rs' hs hl _
    cases rs' with
    | nil => simpa [encodeRunes] using hs
    | cons _ _ => simp at hl
  | cons r rs ih =>
    intro i hi
    simp only [List.foldl_cons]
    obtain ⟨a, b⟩ := ih (RegexpInfo.concat i (analyzeFold1 orbit r))
      (concat_good hi (analyzeClass_good _))
    refine ⟨a, ?_⟩
    intro s rs' hs hl hz
    cases rs' with
    | nil => simp at hl
    | cons r' rs' =>
      have := b (s ++ encodeRune r') rs'
        (concat_sound hi (analyzeClass_good _) hs (analyzeFold1_sound (hz (r, r') (by simp))))
        (by simpa using hl) (fun p hp => hz p (by simp [hp]))
      simpa [encodeRunes] using this

theorem analyzeLiteral_good (orbit : Rune → List Rune) (rs : List Rune) (f : Bool) :
    GoodQ (analyzeLiteral orbit rs f).mat := by
  unfold analyzeLiteral
  split
  · split
    · exact goodQ_all
    · exact analyzeClass_good _
    · exact (analyzeFoldList orbit _ _ goodQ_all).1
  · exact simplify_good goodQ_all _

theorem eq_of_foldsTo_false {orbit : Rune → List Rune} : ∀ {rs rs' : List Rune},
    rs.length = rs'.length → (∀ p ∈ rs.zip rs', FoldsTo orbit false p.1 p.2) → rs = rs'
  | [], [], _, _ => rfl
  | [], _ :: _, h, _ => by simp at h
  | _ :: _, [], h, _ => by simp at h
  | r :: rs, r' :: rs', h, hz => by
    have h1 := hz (r, r') (by simp)
    simp only [FoldsTo, Bool.false_eq_true, false_and, or_false] at h1
    have h2 : rs = rs' := eq_of_foldsTo_false (by simpa using h) (fun p hp => hz p (by simp [hp]))
    rw [h1, h2]

theorem analyzeLiteral_sound {orbit : Rune → List Rune} {rs rs' : List Rune} {f : Bool}
    (hl : rs.length = rs'.length) (hz : ∀ p ∈ rs.zip rs', FoldsTo orbit f p.1 p.2) :
    SoundFor (analyzeLiteral orbit rs f) (encodeRunes rs') := by
  unfold analyzeLiteral
  split
  · rename_i hf; subst hf
    split
    · cases rs' with
      | nil => exact emptyString_sound
      | cons _ _ => simp at hl
    · rename_i r
      match rs', hl with
      | [r'], _ =>
        have := analyzeFold1_sound (hz (r, r') (by simp))
        simpa [encodeRunes] using this
    · have := (analyzeFoldList orbit rs emptyString goodQ_all).2 [] rs' emptyString_sound hl hz
      simpa using this
  · rename_i hf
    have hf' : f = false := by simpa using hf
    subst hf'
    have := eq_of_foldsTo_false hl hz
    subst this
    exact simplify_sound goodQ_all _ ⟨by intro e he; cases he; simp, by simp, by simp,
      fun _ _ => sat_allQ⟩

theorem analyzePlus_good {i : RegexpInfo} (h : GoodQ i.mat) : GoodQ (analyzePlus i).mat := by
  unfold analyzePlus; split <;> exact simplify_good (by exact h) _

/-- `x+`: the string starts with a string of `x` and ends with one. -/
theorem analyzePlus_sound {i : RegexpInfo} {a b s : Bytes} (h : GoodQ i.mat) (ha : SoundFor i a)
    (hb : SoundFor i b) (hp : a <+: s) (hs : b <:+ s) : SoundFor (analyzePlus i) s := by
  have hm : ∀ T : Bytes → Prop, (∀ w ∈ windows3 s, T w) → Sat T i.mat := by
    intro T hT
    exact ha.mat T fun w hw => hT w (windows3_affix (b := false) hp hw)
  unfold analyzePlus; split
  · rename_i e he
    refine simplify_sound (by exact h) _ ⟨by simp, fun _ => ⟨a, ha.ex _ he, hp⟩,
      fun _ => ⟨b, hb.ex _ he, hs⟩, hm⟩
  · rename_i he
    refine simplify_sound h _ ⟨by simp [he], fun _ => ?_, fun _ => ?_, hm⟩
    · obtain ⟨p, hp1, hp2⟩ := ha.pre he; exact ⟨p, hp1, hp2.trans hp⟩
    · obtain ⟨p, hp1, hp2⟩ := hb.suf he; exact ⟨p, hp1, hp2.trans hs⟩

/-! ## The whole expression -/

theorem slice_self {w : Bytes} {i : Nat} : slice w i i = [] := by simp [slice]

theorem slice_append {w : Bytes} {i k j : Nat} (h1 : i ≤ k) (h2 : k ≤ j) :
    slice w i k ++ slice w k j = slice w i j := by
  unfold slice
  obtain ⟨a, rfl⟩ := Nat.exists_eq_add_of_le h1
  obtain ⟨b, rfl⟩ := Nat.exists_eq_add_of_le h2
  rw [show i + a + b - i = a + b by omega, show i + a - i = a by omega,
    show i + a + b - (i + a) = b by omega, List.take_add, List.drop_drop]

theorem slice_zero_length {w : Bytes} {i j : Nat} : ∃ a b, w = a ++ slice w i j ++ b := by
  refine ⟨w.take i, (w.drop i).drop (j - i), ?_⟩
  unfold slice
  rw [List.append_assoc, List.take_append_drop, List.take_append_drop]

theorem runeAt_le {w : Bytes} {r : Rune} {i j : Nat} (h : RuneAt w r i j) : i ≤ j ∧ j ≤ w.length := by
  obtain ⟨_, h2, h3, _⟩ := h; omega

theorem runeAt_slice {w : Bytes} {r : Rune} {i j : Nat} (h : RuneAt w r i j) :
    slice w i j = encodeRune r := by
  obtain ⟨h1, _, _, h4⟩ := h; rw [h4, encodeRune, if_pos h1]

theorem LitAt.spec {orbit : Rune → List Rune} {f : Bool} {w : Bytes} : ∀ {rs : List Rune} {i j : Nat},
    i ≤ w.length → LitAt orbit f w rs i j →
    i ≤ j ∧ j ≤ w.length ∧ ∃ rs', rs.length = rs'.length ∧
      (∀ p ∈ rs.zip rs', FoldsTo orbit f p.1 p.2) ∧ slice w i j = encodeRunes rs'
  | [], i, j, hi, h => by
    simp only [LitAt] at h; subst h
    exact ⟨Nat.le_refl _, hi, [], rfl, by simp, slice_self⟩
  | r :: rs, i, j, hi, h => by
    simp only [LitAt] at h
    obtain ⟨r', k, hf, hr, hl⟩ := h
    obtain ⟨a, b, rs', c, d, e⟩ := LitAt.spec (runeAt_le hr).2 hl
    refine ⟨Nat.le_trans (runeAt_le hr).1 a, b, r' :: rs', by simp [c], ?_, ?_⟩
    · intro p hp
      simp only [List.zip_cons_cons, List.mem_cons] at hp
      rcases hp with rfl | hp
      · exact hf
      · exact d p hp
    · rw [← slice_append (runeAt_le hr).1 a, runeAt_slice hr, e]; simp [encodeRunes]

/-- `R` only moves forward inside the text. -/
def Forward (w : Bytes) (R : Nat → Nat → Prop) : Prop :=
  ∀ i j, i ≤ w.length → R i j → i ≤ j ∧ j ≤ w.length

theorem Iter.forward {w : Bytes} {R : Nat → Nat → Prop} (hR : Forward w R) :
    ∀ n, Forward w (Iter R n) := by
  intro n
  induction n with
  | zero => intro i j hi h; simp only [Iter] at h; subst h; exact ⟨Nat.le_refl _, hi⟩
  | succ n ih =>
    intro i j hi h
    simp only [Iter] at h
    obtain ⟨k, h1, h2⟩ := h
    have a := hR i k hi h1
    have b := ih k j a.2 h2
    exact ⟨Nat.le_trans a.1 b.1, b.2⟩

/-- A positive number of iterations starts with one and ends with one. -/
theorem Iter.ends {w : Bytes} {R : Nat → Nat → Prop} (hR : Forward w R) : ∀ n i j, i ≤ w.length →
    Iter R (n + 1) i j → ∃ k l, R i k ∧ R l j ∧ l ≤ w.length ∧ k ≤ j ∧ i ≤ l := by
  intro n
  induction n with
  | zero =>
    intro i j hi h
    obtain ⟨k, h1, h2⟩ := h
    simp only [Iter] at h2; subst h2
    exact ⟨k, i, h1, h1, hi, Nat.le_refl _, Nat.le_refl _⟩
  | succ n ih =>
    intro i j hi h
    obtain ⟨k, h1, h2⟩ := h
    have a := hR i k hi h1
    obtain ⟨k', l, h3, h4, h5, h6, h7⟩ := ih k j a.2 h2
    have b := Iter.forward hR (n + 1) k j a.2 h2
    exact ⟨k, l, h1, h4, h5, b.1, Nat.le_trans a.1 h7⟩

theorem foldInfos_good {f : RegexpInfo → RegexpInfo → RegexpInfo} {z : RegexpInfo}
    (hf : ∀ x y, GoodQ x.mat → GoodQ y.mat → GoodQ (f x y).mat) (hz : GoodQ z.mat) :
    ∀ l : List RegexpInfo, (∀ x ∈ l, GoodQ x.mat) → GoodQ (foldInfos f z l).mat
  | [], _ => hz
  | x :: xs, h => by
    simp only [foldInfos]
    have key : ∀ (xs : List RegexpInfo) (x : RegexpInfo), GoodQ x.mat → (∀ y ∈ xs, GoodQ y.mat) →
        GoodQ (xs.foldl f x).mat := by
      intro xs
      induction xs with
      | nil => intro x hx _; exact hx
      | cons y ys ih =>
        intro x hx hy
        exact ih _ (hf x y hx (hy y (by simp))) (fun z hz => hy z (by simp [hz]))
    exact key xs x (h x (by simp)) (fun y hy => h y (by simp [hy]))

mutual
theorem analyze_good (orbit : Rune → List Rune) : ∀ re : Re, GoodQ (analyze orbit re).mat
  | .noMatch => goodQ_none
  | .emptyMatch | .beginLine | .endLine | .beginText | .endText | .wordBoundary | .noWordBoundary => by
    simp only [analyze]; exact goodQ_all
  | .literal rs f => analyzeLiteral_good orbit rs f
  | .anyCharNotNL => goodQ_all
  | .anyChar => goodQ_all
  | .capture r => by simp only [analyze]; exact analyze_good orbit r
  | .concat rs => by
    simp only [analyze]
    exact foldInfos_good (fun _ _ => concat_good) goodQ_all _ (analyzeList_good orbit rs)
  | .alternate rs => by
    simp only [analyze]
    exact foldInfos_good (fun _ _ => alternate_good) goodQ_none _ (analyzeList_good orbit rs)
  | .quest r => by simp only [analyze]; exact alternate_good (analyze_good orbit r) goodQ_all
  | .star _ => goodQ_all
  | .rep r lo _ => by
    simp only [analyze]; split
    · exact goodQ_all
    · exact analyzePlus_good (analyze_good orbit r)
  | .plus r => by simp only [analyze]; exact analyzePlus_good (analyze_good orbit r)
  | .charClass ranges => analyzeClass_good ranges
theorem analyzeList_good (orbit : Rune → List Rune) :
    ∀ res : List Re, ∀ x ∈ analyzeList orbit res, GoodQ x.mat
  | [] => by simp [analyzeList]
  | r :: rs => by
    intro x hx
    simp only [analyzeList, List.mem_cons] at hx
    rcases hx with hx | hx
    · rw [hx]; exact analyze_good orbit r
    · exact analyzeList_good orbit rs x hx
end

mutual
theorem matchAt_forward (orbit : Rune → List Rune) (w : Bytes) :
    ∀ re : Re, Forward w (MatchAt orbit w re)
  | .noMatch => fun _ _ _ h => by simp [MatchAt] at h
  | .emptyMatch => fun i j hi h => by simp only [MatchAt] at h; subst h; exact ⟨Nat.le_refl _, hi⟩
  | .beginLine | .endLine | .beginText | .endText | .wordBoundary | .noWordBoundary => fun i j hi h => by
    simp only [MatchAt] at h; obtain ⟨rfl, _⟩ := h; exact ⟨Nat.le_refl _, hi⟩
  | .literal rs f => fun i j hi h => by
    simp only [MatchAt] at h
    obtain ⟨a, b, _⟩ := LitAt.spec hi h; exact ⟨a, b⟩
  | .charClass _ => fun i j hi h => by
    simp only [MatchAt] at h
    obtain ⟨_, _, _, _, _, h⟩ := h; exact runeAt_le h
  | .anyCharNotNL => fun i j hi h => by
    simp only [MatchAt] at h
    obtain ⟨_, _, h⟩ := h; exact runeAt_le h
  | .anyChar => fun i j hi h => by
    simp only [MatchAt] at h
    obtain ⟨_, h⟩ := h; exact runeAt_le h
  | .capture r => fun i j hi h => by
    simp only [MatchAt] at h; exact matchAt_forward orbit w r i j hi h
  | .concat rs => fun i j hi h => by
    simp only [MatchAt] at h; exact concatAt_forward orbit w rs i j hi h
  | .alternate rs => fun i j hi h => by
    simp only [MatchAt] at h; exact alternateAt_forward orbit w rs i j hi h
  | .quest r => fun i j hi h => by
    simp only [MatchAt] at h
    rcases h with h | h
    · subst h; exact ⟨Nat.le_refl _, hi⟩
    · exact matchAt_forward orbit w r i j hi h
  | .star r => fun i j hi h => by
    simp only [MatchAt] at h
    obtain ⟨n, h⟩ := h; exact Iter.forward (matchAt_forward orbit w r) n i j hi h
  | .plus r => fun i j hi h => by
    simp only [MatchAt] at h
    obtain ⟨n, h⟩ := h; exact Iter.forward (matchAt_forward orbit w r) (n + 1) i j hi h
  | .rep r _ _ => fun i j hi h => by
    simp only [MatchAt] at h
    obtain ⟨n, _, _, h⟩ := h; exact Iter.forward (matchAt_forward orbit w r) n i j hi h
theorem concatAt_forward (orbit : Rune → List Rune) (w : Bytes) :
    ∀ res : List Re, Forward w (ConcatAt orbit w res)
  | [] => fun i j hi h => by simp only [ConcatAt] at h; subst h; exact ⟨Nat.le_refl _, hi⟩
  | r :: rs => fun i j hi h => by
    simp only [ConcatAt] at h
    obtain ⟨k, h1, h2⟩ := h
    have a := matchAt_forward orbit w r i k hi h1
    have b := concatAt_forward orbit w rs k j a.2 h2
    exact ⟨Nat.le_trans a.1 b.1, b.2⟩
theorem alternateAt_forward (orbit : Rune → List Rune) (w : Bytes) :
    ∀ res : List Re, Forward w (AlternateAt orbit w res)
  | [] => fun _ _ _ h => by simp [AlternateAt] at h
  | r :: rs => fun i j hi h => by
    simp only [AlternateAt] at h
    rcases h with h | h
    · exact matchAt_forward orbit w r i j hi h
    · exact alternateAt_forward orbit w rs i j hi h
end

mutual
/-- The analysis of an expression is true of every string it matches. -/
theorem analyze_sound (orbit : Rune → List Rune) (w : Bytes) : ∀ (re : Re) (i j : Nat),
    i ≤ w.length → MatchAt orbit w re i j → SoundFor (analyze orbit re) (slice w i j)
  | .noMatch, i, j, _, h => by simp [MatchAt] at h
  | .emptyMatch, i, j, _, h => by
    simp only [MatchAt] at h; rw [h, slice_self]; exact emptyString_sound
  | .beginLine, i, j, _, h | .endLine, i, j, _, h | .beginText, i, j, _, h | .endText, i, j, _, h
  | .wordBoundary, i, j, _, h | .noWordBoundary, i, j, _, h => by
    simp only [MatchAt] at h; rw [h.1, slice_self]; exact emptyString_sound
  | .literal rs f, i, j, hi, h => by
    simp only [MatchAt] at h
    obtain ⟨_, _, rs', h1, h2, h3⟩ := LitAt.spec hi h
    rw [h3]; simp only [analyze]; exact analyzeLiteral_sound h1 h2
  | .charClass ranges, i, j, _, h => by
    simp only [MatchAt] at h
    obtain ⟨p, hp, r, h1, h2, h3⟩ := h
    rw [runeAt_slice h3]; simp only [analyze]; exact analyzeClass_sound hp h1 h2
  | .anyCharNotNL, i, j, _, _ => by simp only [analyze]; exact anyChar_sound _
  | .anyChar, i, j, _, _ => by simp only [analyze]; exact anyChar_sound _
  | .star _, i, j, _, _ => by simp only [analyze]; exact anyMatch_sound _
  | .capture r, i, j, hi, h => by
    simp only [MatchAt] at h; simp only [analyze]; exact analyze_sound orbit w r i j hi h
  | .quest r, i, j, hi, h => by
    simp only [MatchAt] at h; simp only [analyze]
    refine alternate_sound (analyze_good orbit r) goodQ_all ?_
    rcases h with h | h
    · right; rw [h, slice_self]; exact emptyString_sound
    · left; exact analyze_sound orbit w r i j hi h
  | .plus r, i, j, hi, h => by
    simp only [MatchAt] at h; simp only [analyze]
    obtain ⟨n, h⟩ := h
    obtain ⟨k, l, h1, h2, h3, h4, h5⟩ := Iter.ends (matchAt_forward orbit w r) n i j hi h
    have a := matchAt_forward orbit w r i k hi h1
    have b := matchAt_forward orbit w r l j h3 h2
    exact analyzePlus_sound (analyze_good orbit r) (analyze_sound orbit w r i k hi h1)
      (analyze_sound orbit w r l j h3 h2) ⟨slice w k j, slice_append a.1 h4⟩
      ⟨slice w i l, slice_append h5 b.1⟩
  | .rep r lo hi', i, j, hi, h => by
    simp only [MatchAt] at h; simp only [analyze]
    split
    · exact anyMatch_sound _
    · obtain ⟨n, hn, _, h⟩ := h
      obtain ⟨m, rfl⟩ : ∃ m, n = m + 1 := ⟨n - 1, by omega⟩
      obtain ⟨k, l, h1, h2, h3, h4, h5⟩ := Iter.ends (matchAt_forward orbit w r) m i j hi h
      have a := matchAt_forward orbit w r i k hi h1
      have b := matchAt_forward orbit w r l j h3 h2
      exact analyzePlus_sound (analyze_good orbit r) (analyze_sound orbit w r i k hi h1)
        (analyze_sound orbit w r l j h3 h2) ⟨slice w k j, slice_append a.1 h4⟩
        ⟨slice w i l, slice_append h5 b.1⟩
  | .concat [], i, j, hi, h => by
    simp only [MatchAt, ConcatAt] at h
    simp only [analyze, analyzeList, foldInfos]
    rw [h, slice_self]; exact emptyString_sound
  | .concat (r :: rs), i, j, hi, h => by
    simp only [MatchAt, ConcatAt] at h
    obtain ⟨k, h1, h2⟩ := h
    simp only [analyze, analyzeList, foldInfos]
    have a := matchAt_forward orbit w r i k hi h1
    exact analyzeConcat_sound orbit w rs i k j a.1 a.2 _ (analyze_good orbit r)
      (analyze_sound orbit w r i k hi h1) h2
  | .alternate [], i, j, hi, h => by simp [MatchAt, AlternateAt] at h
  | .alternate (r :: rs), i, j, hi, h => by
    simp only [MatchAt, AlternateAt] at h
    simp only [analyze, analyzeList, foldInfos]
    refine analyzeAlternate_sound orbit w rs i j hi _ (analyze_good orbit r) ?_
    rcases h with h | h
    · exact Or.inl (analyze_sound orbit w r i j hi h)
    · exact Or.inr h
theorem analyzeConcat_sound (orbit : Rune → List Rune) (w : Bytes) : ∀ (rs : List Re) (i k j : Nat),
    i ≤ k → k ≤ w.length → ∀ x : RegexpInfo, GoodQ x.mat → SoundFor x (slice w i k) →
    ConcatAt orbit w rs k j →
    SoundFor ((analyzeList orbit rs).foldl RegexpInfo.concat x) (slice w i j)
  | [], i, k, j, _, _, x, _, hs, h => by
    simp only [ConcatAt] at h; subst h; simpa [analyzeList] using hs
  | r :: rs, i, k, j, hik, hk, x, hx, hs, h => by
    simp only [ConcatAt] at h
    obtain ⟨l, h1, h2⟩ := h
    have a := matchAt_forward orbit w r k l hk h1
    simp only [analyzeList, List.foldl_cons]
    refine analyzeConcat_sound orbit w rs i l j (Nat.le_trans hik a.1) a.2 _
      (concat_good hx (analyze_good orbit r)) ?_ h2
    rw [← slice_append hik a.1]
    exact concat_sound hx (analyze_good orbit r) hs (analyze_sound orbit w r k l hk h1)
theorem analyzeAlternate_sound (orbit : Rune → List Rune) (w : Bytes) : ∀ (rs : List Re) (i j : Nat),
    i ≤ w.length → ∀ x : RegexpInfo, GoodQ x.mat →
    (SoundFor x (slice w i j) ∨ AlternateAt orbit w rs i j) →
    SoundFor ((analyzeList orbit rs).foldl RegexpInfo.alternate x) (slice w i j)
  | [], i, j, _, x, _, h => by
    simp only [AlternateAt, or_false] at h; simpa [analyzeList] using h
  | r :: rs, i, j, hi, x, hx, h => by
    simp only [analyzeList, List.foldl_cons]
    refine analyzeAlternate_sound orbit w rs i j hi _ (alternate_good hx (analyze_good orbit r)) ?_
    rcases h with h | h
    · exact Or.inl (alternate_sound hx (analyze_good orbit r) (Or.inl h))
    · simp only [AlternateAt] at h
      rcases h with h | h
      · exact Or.inl (alternate_sound hx (analyze_good orbit r)
          (Or.inr (analyze_sound orbit w r i j hi h)))
      · exact Or.inr h
end

theorem regexpQuery_good (orbit : Rune → List Rune) (re : Re) : GoodQ (regexpQuery orbit re) :=
  addExact_good (simplify_good (analyze_good orbit re) _)

theorem regexpQuery_sound {orbit : Rune → List Rune} {re : Re} {w : Bytes}
    (h : Matches orbit re w) {T : Bytes → Prop} (hT : ∀ t, HasTrigram w t → T t) :
    Sat T (regexpQuery orbit re) := by
  obtain ⟨i, j, hi, hm⟩ := h
  have hg := analyze_good orbit re
  have := addExact_sound (simplify_good hg true)
    (simplify_sound hg true (analyze_sound orbit w re i j hi hm))
  refine this.mat T ?_
  intro t ht
  apply hT
  rw [mem_windows3] at ht
  obtain ⟨h3, c, d, hcd⟩ := ht
  obtain ⟨a, b, hab⟩ := slice_zero_length (w := w) (i := i) (j := j)
  exact ⟨h3, a ++ c, d ++ b, by rw [hab, hcd]; simp⟩

end Hound
