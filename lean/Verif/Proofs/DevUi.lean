import Verif.Model.DevUi

namespace Hound.DevUi

variable {T : Type} {E : Engine T} {env : Env}

theorem fileAt_append (f0 : Bytes → Option Bytes) (a b : List Ev) : fileAt f0 (a ++ b) = fileAt (fileAt f0 a) b := by
  induction a generalizing f0 with
  | nil => rfl
  | cons e a ih =>
    cases e <;> exact ih _

theorem Steps.split {s t : St T} {tr : List Ev} (h : Steps E env s tr t) :
    ∀ a b, tr = a ++ b → ∃ m, Steps E env s a m ∧ Steps E env m b t := by
  induction h with
  | refl =>
    intro a b h
    obtain ⟨rfl, rfl⟩ := List.append_eq_nil_iff.1 h.symm
    exact ⟨s, .refl, .refl⟩
  | @step tr t u e h hs ih =>
    intro a b hab
    rcases List.eq_nil_or_concat b with rfl | ⟨b', x, rfl⟩
    · refine ⟨u, ?_, .refl⟩
      rw [List.append_nil] at hab
      exact hab ▸ .step h hs
    · rw [List.concat_eq_append, ← List.append_assoc] at hab
      obtain ⟨h1, h2⟩ := List.append_inj' hab rfl
      obtain rfl : e = x := by simpa using h2
      obtain ⟨m, h3, h4⟩ := ih a b' h1
      exact ⟨m, h3, by rw [List.concat_eq_append]; exact .step h4 hs⟩

theorem Steps.one {s t : St T} {e : Ev} (h : Steps E env s [e] t) : Step E env s e t := by
  generalize htr : [e] = tr at h
  cases h with
  | refl => cases htr
  | @step tr u _ e' h hs =>
    obtain ⟨h1, h2⟩ := List.append_inj' (s₁ := []) htr rfl
    obtain rfl : e = e' := by simpa using h2
    subst h1
    generalize hn : ([] : List Ev) = n at h
    cases h with
    | refl => exact hs
    | step h _ => simp at hn

theorem Steps.trans {s t u : St T} {a b : List Ev} (h : Steps E env s a t) (h' : Steps E env t b u) :
    Steps E env s (a ++ b) u := by
  induction h' with
  | refl => simpa using h
  | step h' hs ih => rw [← List.append_assoc]; exact .step ih hs

theorem Step.file {s t : St T} {e : Ev} (h : Step E env s e t) : t.file = fileAt s.file [e] := by
  cases h <;> rfl

theorem Steps.file {s t : St T} {tr : List Ev} (h : Steps E env s tr t) : t.file = fileAt s.file tr := by
  induction h with
  | refl => rfl
  | step h hs ih => rw [hs.file, fileAt_append, ih]

/-- What a request asks for does not change. -/
theorem Step.keeps {s t : St T} {e : Ev} (h : Step E env s e t) (r : Nat) (p hst : Bytes)
    (hr : ∃ ph, s.req r = some (p, hst, ph)) : ∃ ph, t.req r = some (p, hst, ph) := by
  obtain ⟨ph, hr⟩ := hr
  cases h <;> simp only [upd] <;> grind

theorem Steps.keeps {s t : St T} {tr : List Ev} (h : Steps E env s tr t) (r : Nat) (p hst : Bytes)
    (hr : ∃ ph, s.req r = some (p, hst, ph)) : ∃ ph, t.req r = some (p, hst, ph) := by
  induction h with
  | refl => exact hr
  | step h hs ih => exact hs.keeps r p hst ih

/-- Requests are those that arrived; those that are over have been answered. -/
structure Seen (tr : List Ev) (s : St T) : Prop where
  arrived : ∀ r p h ph, s.req r = some (p, h, ph) → Ev.arrive r p h ∈ tr
  answered : ∀ r o, Ev.answer r o ∈ tr → ∃ p h, s.req r = some (p, h, .done)

theorem Seen.step {tr : List Ev} {s t : St T} {e : Ev} (i : Seen tr s) (h : Step E env s e t) : Seen (tr ++ [e]) t := by
  obtain ⟨i1, i2⟩ := i
  constructor
  · intro r p hst ph hr
    cases h <;> simp only [upd] at hr <;> grind
  · intro r o hr
    rw [List.mem_append, List.mem_singleton] at hr
    have old : ∀ r' v, (s.req r' = none ∨ ∃ p h ph, ph ≠ .done ∧ s.req r' = some (p, h, ph)) →
        Ev.answer r o ∈ tr → ∃ p h, upd s.req r' v r = some (p, h, .done) := by
      intro r' v hn hm
      obtain ⟨p, h, hd⟩ := i2 r o hm
      refine ⟨p, h, ?_⟩
      unfold upd
      split
      · subst r'
        rcases hn with hn | ⟨_, _, _, hn, h2⟩
        · rw [hn] at hd; cases hd
        · rw [h2] at hd; cases hd; exact absurd rfl hn
      · exact hd
    rcases hr with hr | hr
    · cases h with
      | edit => exact i2 r o hr
      | arrive _ _ _ h0 => exact old _ _ (.inl h0) hr
      | static _ _ _ h0 => exact old _ _ (.inr ⟨_, _, _, by simp, h0⟩) hr
      | parse _ _ _ _ h0 => exact old _ _ (.inr ⟨_, _, _, by simp, h0⟩) hr
      | store _ _ _ _ h0 => exact old _ _ (.inr ⟨_, _, _, by simp, h0⟩) hr
      | fail _ _ _ h0 => exact old _ _ (.inr ⟨_, _, _, by simp, h0⟩) hr
      | execute _ _ _ _ h0 => exact old _ _ (.inr ⟨_, _, _, by simp, h0⟩) hr
    · subst hr
      cases h <;> exact ⟨_, _, by simp only [upd, if_true]; rfl⟩

theorem seen {f0 : Bytes → Option Bytes} {tr : List Ev} {s : St T} (h : Steps E env (start f0) tr s) : Seen tr s := by
  induction h with
  | refl => exact ⟨fun r p h ph hr => (by cases hr), fun r o h => (by cases h)⟩
  | step h hs ih => exact ih.step hs

/-- The results of parsing that requests for a page have are of a kind. -/
def Good (V : Option T → Prop) (p : Bytes) (s : St T) : Prop :=
  ∀ r h ph, s.req r = some (p, h, ph) →
    match ph with
    | .opened => True
    | .parsed t => V t
    | .failed => V none
    | .stored => V (s.tpl p)
    | .done => True

theorem Good.step {V : Option T → Prop} {p : Bytes} {s t : St T} {e : Ev} (g : Good V p s) (h : Step E env s e t)
    (hV : V (E.parse p (s.file p))) : Good V p t := by
  intro r hst ph hr
  cases h with
  | edit q f => exact g r hst ph hr
  | arrive r' p' h' h0 =>
    simp only [upd] at hr
    split at hr
    · cases hr; trivial
    · exact g r hst ph hr
  | static r' p' h' h0 h1 =>
    simp only [upd] at hr
    split at hr
    · cases hr; trivial
    · exact g r hst ph hr
  | parse r' p' h' srcs h0 h1 =>
    simp only [upd] at hr
    split at hr
    · cases hr; exact hV
    · exact g r hst ph hr
  | store r' p' h' x h0 =>
    simp only [upd] at hr
    split at hr
    · cases hr
      have hx : V x := g r' _ _ h0
      cases x with
      | none => exact hx
      | some x => simpa [upd] using hx
    · have h2 := g r hst ph hr
      by_cases hp : p = p'
      · subst hp
        have hx : V x := g r' _ _ h0
        cases ph <;> simp_all [upd]
      · cases ph <;> simp_all [upd]
  | fail r' p' h' h0 =>
    simp only [upd] at hr
    split at hr
    · cases hr; trivial
    · exact g r hst ph hr
  | execute r' p' h' srcs h0 h1 =>
    simp only [upd] at hr
    split at hr
    · cases hr; trivial
    · exact g r hst ph hr

/-- After any steps, they are of files the page had on the way. -/
theorem good_steps {p : Bytes} {s t : St T} {w : List Ev} (h : Steps E env s w t) (g : Good (fun _ => False) p s) :
    Good (fun x => ∃ m, m <+: w ∧ x = E.parse p (fileAt s.file m p)) p t := by
  induction h with
  | refl =>
    intro r hst ph hr
    have := g r hst ph hr
    cases ph <;> simp_all
  | @step tr t u e h hs ih =>
    refine Good.step (s := t) ?_ hs ⟨tr, List.prefix_append _ _, by rw [h.file]⟩
    intro r hst ph hr
    have := ih r hst ph hr
    have mono : ∀ x, (∃ m, m <+: tr ∧ x = E.parse p (fileAt s.file m p)) →
        ∃ m, m <+: tr ++ [e] ∧ x = E.parse p (fileAt s.file m p) :=
      fun x ⟨m, h1, h2⟩ => ⟨m, h1.trans (List.prefix_append _ _), h2⟩
    cases ph with
    | opened => trivial
    | parsed t => exact mono _ this
    | failed => exact mono _ this
    | stored => exact mono _ this
    | done => trivial

theorem idle_good {f0 : Bytes → Option Bytes} {z : List Ev} {s : St T} (h : Steps E env (start f0) z s) {p : Bytes}
    (hi : Idle p z) : Good (fun _ => False) p s := by
  intro r hst ph hr
  obtain ⟨i1, i2⟩ := seen h
  obtain ⟨o, ho⟩ := hi r hst (i1 _ _ _ _ hr)
  obtain ⟨p', h', h2⟩ := i2 r o ho
  rw [hr] at h2
  cases h2
  trivial

/-- The answer to a request, from a moment at which no request for its page was open. -/
theorem answer_since {f0 : Bytes → Option Bytes} {z w c : List Ev} {s : St T} {r : Nat} {p host : Bytes}
    {srcs : List Bytes} {out : Option Bytes}
    (hs : Steps E env (start f0) (z ++ (w ++ (.answer r out :: c))) s) (hi : Idle p z) (ha : Ev.arrive r p host ∈ w)
    (hp : contents p = some srcs) :
    ∃ m, m <+: w ∧ out = shown E p (fileAt f0 (z ++ m) p) (dataFor env srcs host) := by
  obtain ⟨s1, hz, h1⟩ := hs.split z _ rfl
  obtain ⟨s2, hw, h2⟩ := h1.split w _ rfl
  obtain ⟨s3, hx, _⟩ := h2.split [.answer r out] c rfl
  have g := good_steps hw (idle_good hz hi)
  -- the request
  have hreq : ∃ ph, s2.req r = some (p, host, ph) := by
    obtain ⟨w1, w2, rfl⟩ := List.append_of_mem ha
    obtain ⟨t1, _, h4⟩ := hw.split w1 _ rfl
    obtain ⟨t2, h5, h6⟩ := h4.split [.arrive r p host] w2 rfl
    refine h6.keeps r p host ?_
    have h7 := h5.one
    cases h7 with
    | arrive _ _ _ h0 => exact ⟨.opened, by simp [upd]⟩
  obtain ⟨ph, hreq⟩ := hreq
  have g' := g r host ph hreq
  have hfile : ∀ m, fileAt f0 (z ++ m) p = fileAt s1.file m p := by
    intro m; rw [fileAt_append, hz.file]; rfl
  have hstep := hx.one
  generalize s3 = t3 at hstep
  cases hstep with
  | static _ p' h' h0 hc => rw [hreq] at h0; cases h0; rw [hp] at hc; cases hc
  | fail _ p' h' h0 =>
    rw [hreq] at h0; cases h0
    obtain ⟨m, hm, h8⟩ := g'
    exact ⟨m, hm, by rw [hfile]; simp only [shown, ← h8]⟩
  | execute _ p' h' srcs' h0 hc =>
    rw [hreq] at h0; cases h0
    rw [hp] at hc; cases hc
    obtain ⟨m, hm, h8⟩ := g'
    refine ⟨m, hm, ?_⟩
    rw [hfile]
    simp only [shown, ← h8]
    cases s2.tpl p <;> rfl

theorem static_answer {f0 : Bytes → Option Bytes} {w c : List Ev} {s : St T} {r : Nat} {p host : Bytes}
    {out : Option Bytes} (hs : Steps E env (start f0) (w ++ (.answer r out :: c)) s) (ha : Ev.arrive r p host ∈ w)
    (hp : contents p = none) : out = env.static p := by
  obtain ⟨s2, hw, h2⟩ := hs.split w _ rfl
  obtain ⟨s3, hx, _⟩ := h2.split [.answer r out] c rfl
  have hreq : ∃ ph, s2.req r = some (p, host, ph) := by
    obtain ⟨w1, w2, rfl⟩ := List.append_of_mem ha
    obtain ⟨t1, _, h4⟩ := hw.split w1 _ rfl
    obtain ⟨t2, h5, h6⟩ := h4.split [.arrive r p host] w2 rfl
    refine h6.keeps r p host ?_
    have h7 := h5.one
    cases h7 with
    | arrive _ _ _ h0 => exact ⟨.opened, by simp [upd]⟩
  -- requests for other addresses are opened or done
  have hph : ∀ q, contents q = none → ∀ r h ph, s2.req r = some (q, h, ph) → ph = .opened ∨ ph = .done := by
    clear ha hreq hx h2 hs hp
    intro q hq
    induction hw with
    | refl => intro r h ph hr; cases hr
    | step _ hs ih =>
      intro r h ph hr
      cases hs <;> simp only [upd] at hr <;> grind
  obtain ⟨ph, hreq⟩ := hreq
  have hstep := hx.one
  generalize s3 = t3 at hstep
  cases hstep with
  | static _ p' h' h0 hc => rw [hreq] at h0; cases h0; rfl
  | fail _ p' h' h0 => rw [hreq] at h0; cases h0; rcases hph p hp _ _ _ hreq with h | h <;> cases h
  | execute _ p' h' srcs' h0 hc => rw [hreq] at h0; cases h0; rw [hp] at hc; cases hc

theorem contents_some {p source : Bytes} (h : (p, source) ∈ pages) : ∃ srcs, contents p = some srcs ∧ scripts srcs = source := by
  simp only [pages, List.mem_cons, List.not_mem_nil, or_false] at h
  rcases h with h | h | h <;> obtain ⟨rfl, rfl⟩ := Prod.mk.inj h
  · exact ⟨[b!"js/hound.js"], rfl, rfl⟩
  · exact ⟨[], rfl, rfl⟩
  · exact ⟨[b!"js/excluded_files.js"], rfl, rfl⟩

theorem contents_none {p : Bytes} (h : ∀ source, (p, source) ∉ pages) : contents p = none := by
  simp only [pages, List.mem_cons, List.not_mem_nil, or_false] at h
  unfold contents
  rw [if_neg, if_neg, if_neg]
  · rintro rfl; exact h _ (.inr (.inr rfl))
  · rintro rfl; exact h _ (.inr (.inl rfl))
  · rintro rfl; exact h _ (.inl rfl)

end Hound.DevUi
