import Verif.Spec.Html

/-!
# C56: highlighted lines on the web page (`ui/assets/js/hound.js`, `common.js`)
-/

namespace Hound.Ui
open Spec

theorem after?_eq (p s : JsStr) : after? p (p ++ s) = some s := by simp [after?]

theorem shownText_fuel {f : Nat} : ∀ {em : Bool} {s : JsStr} {t}, shownText f em s = some t → ∀ {g}, f ≤ g →
    shownText g em s = some t := by
  induction f with
  | zero => intro em s t h; simp [shownText] at h
  | succ f ih =>
    intro em s t h g hg
    obtain ⟨g, rfl⟩ : ∃ k, g = k + 1 := ⟨g - 1, by omega⟩
    have hfg : f ≤ g := by omega
    cases s with
    | nil => simpa [shownText] using h
    | cons c s =>
      have ihm : ∀ {em s' x}, (shownText f em s').map (x :: ·) = some t → (shownText g em s').map (x :: ·) = some t := by
        intro em s' x hx
        obtain ⟨u, hu, hu'⟩ := Option.map_eq_some_iff.1 hx
        rw [ih hu hfg]; exact congrArg some hu'
      unfold shownText at h ⊢
      by_cases h1 : c = 38
      · simp only [h1, if_true] at h ⊢
        split at h
        · exact ihm h
        · rename_i a; simp only [a] at *; exact ihm h
        · rename_i a b; simp only [a, b] at *; exact ihm h
        · rename_i a b c; simp only [a, b, c] at *; exact ihm h
        · exact absurd h (by simp)
      · simp only [h1, if_false] at h ⊢
        by_cases h2 : c = 60
        · simp only [h2, if_true] at h ⊢
          split at h
          · split at h
            · cases h
            · rename_i he; rw [if_neg he]; exact ih h hfg
          · rename_i a
            simp only [a] at *
            split at h
            · rename_i he; rw [if_pos he]; exact ih h hfg
            · cases h
          · exact absurd h (by simp)
        · simp only [h2, if_false] at h ⊢
          exact ihm h

/-- A piece that begins inside (`em`) or outside `<em>`, and ends outside. -/
def Shown' (em : Bool) (s : JsStr) (t : List (UInt16 × Bool)) : Prop := shownText (s.length + 1) em s = some t

theorem shown_nil : Shown' false [] [] := rfl

theorem shown_unit {em : Bool} {s : JsStr} {t : List (UInt16 × Bool)} (h : Shown' em s t) (c : UInt16) :
    Shown' em (escapeUnit c ++ s) ((c, em) :: t) := by
  unfold Shown' at *
  have key : shownText (s.length + 1 + 1) em (escapeUnit c ++ s) = some ((c, em) :: t) := by
    unfold escapeUnit
    by_cases h1 : c = 38
    · subst h1
      simp [shownText, after?, js, h]
    · by_cases h2 : c = 0xA0
      · subst h2
        simp [shownText, after?, js, h]
      · by_cases h3 : c = 60
        · subst h3
          simp [shownText, after?, js, h]
        · by_cases h4 : c = 62
          · subst h4
            simp [shownText, after?, js, h]
          · simp [h1, h2, h3, h4, shownText, h]
  refine shownText_fuel key ?_
  have : 1 ≤ (escapeUnit c).length := by
    unfold escapeUnit
    repeat' split
    all_goals simp [js]
  rw [List.length_append]; omega

theorem shown_escape {em : Bool} {s : JsStr} {t : List (UInt16 × Bool)} (h : Shown' em s t) (c : JsStr) :
    Shown' em (escapeHtml c ++ s) (c.map (·, em) ++ t) := by
  induction c with
  | nil => simpa [escapeHtml] using h
  | cons a c ih =>
    have := shown_unit ih a
    simpa [escapeHtml] using this

theorem shown_open {s : JsStr} {t : List (UInt16 × Bool)} (h : Shown' true s t) : Shown' false (js b!"<em>" ++ s) t := by
  unfold Shown' at *
  have key : shownText (s.length + 1 + 1) false (js b!"<em>" ++ s) = some t := by
    simp [shownText, after?, js, h]
  exact shownText_fuel key (by simp [js])

theorem shown_close {s : JsStr} {t : List (UInt16 × Bool)} (h : Shown' false s t) : Shown' true (js b!"</em>" ++ s) t := by
  unfold Shown' at *
  have key : shownText (s.length + 1 + 1) true (js b!"</em>" ++ s) = some t := by
    simp [shownText, after?, js, h]
  exact shownText_fuel key (by simp [js])

theorem contentLoop_spec {exec : Exec} (hin : Inside exec) : ∀ {fuel : Nat} {content buffer html : JsStr},
    contentLoop exec fuel content buffer = some html →
    ∃ tail t, html = buffer ++ tail ∧ Shown' false tail t ∧ MarkedBy exec content t := by
  intro fuel
  induction fuel with
  | zero => intro content buffer html h; simp [contentLoop] at h
  | succ fuel ih =>
    intro content buffer html h
    unfold contentLoop at h
    split at h
    · rename_i he
      simp only [Option.some.injEq] at h
      refine ⟨escapeHtml content, content.map (·, false), h.symm, ?_, .rest he⟩
      have := shown_escape shown_nil content
      simpa using this
    · rename_i i n he
      have hle := hin _ _ _ he
      have hm : ((content.drop i).take n).length = n := by rw [List.length_take, List.length_drop]; omega
      simp only [hm, Nat.add_sub_cancel] at h
      obtain ⟨tail, t, h1, h2, h3⟩ := ih h
      refine ⟨escapeHtml (content.take i) ++ (js b!"<em>" ++ (escapeHtml ((content.drop i).take n) ++ (js b!"</em>" ++ tail))),
        _, ?_, ?_, .hit he h3⟩
      · rw [h1]; simp only [List.append_assoc]
      · rw [List.append_assoc]
        exact shown_escape (shown_open (shown_escape (shown_close h2) _)) _

theorem markedBy_text {exec : Exec} {c : JsStr} {t : List (UInt16 × Bool)} (h : MarkedBy exec c t) : t.map (·.1) = c := by
  induction h with
  | rest _ => simp [Function.comp_def]
  | @hit c i n r _ _ ih =>
    simp only [List.map_append, List.map_map, ih]
    have : ∀ (b : Bool) (l : JsStr), l.map ((fun x : UInt16 × Bool => x.1) ∘ fun x => (x, b)) = l := by
      intro b l; simp [Function.comp_def]
    rw [this, this, ← List.drop_drop, List.append_assoc, List.take_append_drop, List.take_append_drop]

/-- **C56**, first part. Whatever characters a line contains, the HTML made for it is read by the browser as exactly the
text of the line (nothing in the line is taken for mark-up); in a line that is not a match nothing is marked, in a matched
line what the expression matches is. -/
theorem content_exact {exec : Exec} (hin : Inside exec) {fuel : Nat} {line html : JsStr} {isMatch : Bool}
    (h : contentFor exec fuel line isMatch = some html) :
    ∃ t, ShownAs html t ∧ t.map (·.1) = line ∧ (isMatch = false → ∀ x ∈ t, x.2 = false) ∧
      (isMatch = true → MarkedBy exec line t) := by
  unfold contentFor at h
  cases isMatch with
  | false =>
    simp at h
    subst h
    refine ⟨line.map (·, false), ?_, by simp [Function.comp_def], by simp, by simp⟩
    have := shown_escape shown_nil line
    simpa [ShownAs, Shown'] using this
  | true =>
    simp at h
    obtain ⟨tail, t, h1, h2, h3⟩ := contentLoop_spec hin h
    refine ⟨t, ?_, markedBy_text h3, by simp, fun _ => h3⟩
    simp at h1
    subst h1
    exact h2

/-- C56 in full: the page finishes every line. -/
def ContentFull : Prop := ∀ (exec : Exec), Inside exec → ∀ line isMatch, ∃ fuel html, contentFor exec fuel line isMatch = some html

/-- What is left of the line after some rounds. -/
inductive Rest (exec : Exec) : JsStr → JsStr → Prop
  | refl {c} : Rest exec c c
  | step {c i n r} : exec c = some (i, n) → Rest exec (c.drop (i + n)) r → Rest exec c r

theorem contentLoop_stuck {exec : Exec} {c : JsStr} (h : exec c = some (0, 0)) : ∀ (fuel : Nat) (b : JsStr),
    contentLoop exec fuel c b = none := by
  intro fuel
  induction fuel with
  | zero => intro b; rfl
  | succ fuel ih => intro b; simp only [contentLoop, h]; exact ih _

theorem contentLoop_rest {exec : Exec} {c r : JsStr} (h : Rest exec c r) (hr : exec r = some (0, 0)) :
    ∀ (fuel : Nat) (b : JsStr), contentLoop exec fuel c b = none := by
  induction h with
  | refl => exact contentLoop_stuck hr
  | step he _ ih =>
    intro fuel b
    cases fuel with
    | zero => rfl
    | succ fuel => simp only [contentLoop, he]; exact ih hr _ _

/-- Exactly when the page finishes a matched line: if it never comes to a rest that begins with an empty match.  Then the
number of rounds is at most the length of the line plus one. -/
theorem content_terminates_iff {exec : Exec} (hin : Inside exec) (line : JsStr) :
    ((∃ fuel html, contentFor exec fuel line true = some html) ↔ ∀ r, Rest exec line r → exec r ≠ some (0, 0)) ∧
    ((∃ fuel html, contentFor exec fuel line true = some html) → ∃ html, contentFor exec (line.length + 1) line true = some html) := by
  have key : (∀ r, Rest exec line r → exec r ≠ some (0, 0)) → ∃ html, contentFor exec (line.length + 1) line true = some html := by
    intro hno
    suffices h : ∀ (f : Nat) (c b : JsStr), c.length < f → (∀ r, Rest exec c r → exec r ≠ some (0, 0)) →
        ∃ html, contentLoop exec f c b = some html by
      simpa [contentFor] using h (line.length + 1) line [] (by omega) hno
    intro f
    induction f with
    | zero => intro c b h; omega
    | succ f ih =>
      intro c b h hno
      unfold contentLoop
      split
      · exact ⟨_, rfl⟩
      · rename_i i n he
        have hpos : 0 < i + n := by
          rcases Nat.eq_zero_or_pos (i + n) with h0 | h0
          · exact absurd (by rw [he]; simp; omega) (hno c .refl)
          · exact h0
        have hle := hin _ _ _ he
        exact ih _ _ (by rw [List.length_drop]; omega) fun r hr => hno r (.step he hr)
  have back : (∃ fuel html, contentFor exec fuel line true = some html) → ∀ r, Rest exec line r → exec r ≠ some (0, 0) := by
    rintro ⟨fuel, html, h⟩ r hr h0
    have := contentLoop_rest hr h0 fuel []
    simp [contentFor, this] at h
  exact ⟨⟨back, fun h => ⟨_, key h⟩⟩, fun h => key (back h)⟩

/-- **C56**, second part, partial: the page finishes every line if the expression matches no empty string. -/
theorem content_terminates_partial {exec : Exec} (hin : Inside exec) (hne : ∀ c i n, exec c = some (i, n) → 0 < n)
    (line : JsStr) (isMatch : Bool) : ∃ html, contentFor exec (line.length + 1) line isMatch = some html := by
  cases isMatch with
  | false => exact ⟨_, rfl⟩
  | true =>
    have h := content_terminates_iff hin line
    exact h.2 (h.1.2 fun r _ hr => absurd (hne _ _ _ hr) (by omega))

/-- `exec` of the expression `x*`: the run of `x` at the beginning, which may be empty. -/
def exStar : Exec := fun c => some (0, (c.takeWhile (· = 120)).length)

/-- **C56** in full is false of the code: searching for `x*` (which the server answers with every line) the page never
finishes the line `a`. -/
theorem not_contentFull : ¬ ContentFull := by
  intro h
  have hin : Inside exStar := by
    intro c i n he
    simp only [exStar, Option.some.injEq, Prod.mk.injEq] at he
    obtain ⟨rfl, rfl⟩ := he
    rw [Nat.zero_add]
    exact (List.takeWhile_prefix _).length_le
  obtain ⟨fuel, html, hc⟩ := h exStar hin (js b!"a") true
  exact (content_terminates_iff hin (js b!"a")).1.1 ⟨fuel, html, hc⟩ _ .refl (by decide)

/-! ### Literal searches -/

theorem parse_escape (t : JsStr) : parseLiteral (escapeRegExp t) = some t := by
  induction t with
  | nil => rfl
  | cons c t ih =>
    have hcons : escapeRegExp (c :: t) = (if escapedUnit c then [92, c] else [c]) ++ escapeRegExp t := by
      simp [escapeRegExp]
    rw [hcons]
    by_cases he : escapedUnit c = true
    · have hs : specialEscape c = false := by
        unfold escapedUnit at he
        simp only [Bool.or_eq_true] at he
        rcases he with he | he
        · simp [js] at he
          rcases he with rfl | rfl | rfl | rfl | rfl | rfl | rfl | rfl | rfl | rfl | rfl | rfl | rfl | rfl | rfl | rfl | rfl | rfl |
            rfl | rfl | rfl | rfl <;> decide
        · unfold specialEscape
          rw [he]
          unfold jsSpace at he
          simp at he
          rcases he with he | he
          · rcases he with rfl | rfl | rfl | rfl | rfl | rfl | rfl | rfl | rfl | rfl | rfl | rfl | rfl | rfl <;> decide
          · obtain ⟨h1, h2⟩ := he
            have a : ∀ k : UInt16, k < 0x2000 → (decide (c ≤ k)) = false := by
              intro k hk
              simp only [decide_eq_false_iff_not, UInt16.not_le]
              exact Nat.lt_of_lt_of_le hk h1
            have b : (c == 95) = false := by
              rw [beq_eq_false_iff_ne]
              rintro rfl
              exact absurd h1 (by decide)
            rw [a 57 (by decide), a 90 (by decide), a 122 (by decide), b]
            simp
      rw [if_pos he]
      simp [parseLiteral, hs, ih]
    · have hsyn : syntaxUnit c = false ∧ c ≠ 92 := by
        unfold escapedUnit at he
        simp only [Bool.or_eq_true, not_or] at he
        have h1 := he.1
        simp [js] at h1
        constructor
        · unfold syntaxUnit
          simp [js]
          simp [h1]
        · simp [h1]
      rw [if_neg he, List.singleton_append, parseLiteral.eq_def]
      simp only
      rw [if_neg hsyn.2, if_neg (by simp [hsyn.1]), ih]
      rfl

theorem getD_drop' (c : JsStr) (i k : Nat) : (c.drop i).getD k 0 = c.getD (i + k) 0 := by
  simp [List.getD_eq_getElem?_getD, List.getElem?_drop]

theorem all_zip {eq : UInt16 → UInt16 → Bool} : ∀ {t c : JsStr}, t.length ≤ c.length →
    ((t.zip c).all (fun p => eq p.1 p.2) = true ↔ ∀ k, k < t.length → eq (t.getD k 0) (c.getD k 0) = true) := by
  intro t
  induction t with
  | nil => intro c _; simp
  | cons a t ih =>
    intro c h
    cases c with
    | nil => simp at h
    | cons b c =>
      simp only [List.zip_cons_cons, List.all_cons, Bool.and_eq_true, ih (c := c) (by simpa using h)]
      constructor
      · rintro ⟨h1, h2⟩ k hk
        cases k with
        | zero => simpa using h1
        | succ k => simpa using h2 k (by simpa using hk)
      · intro h
        refine ⟨by simpa using h 0 (by simp), fun k hk => ?_⟩
        simpa using h (k + 1) (by simpa using hk)

theorem execLiteral_first (eq : UInt16 → UInt16 → Bool) (t : JsStr) : FindsFirst eq t (execLiteral eq t) := by
  intro c
  induction c with
  | nil =>
    unfold execLiteral
    by_cases h : t = []
    · subst h; simp
    · rw [if_neg h]
      intro i hi
      exact absurd (List.length_eq_zero_iff.1 (by simp only [List.length_nil] at hi; omega)) h
  | cons a c ih =>
    unfold execLiteral
    by_cases h : (decide (t.length ≤ (a :: c).length) && (t.zip (a :: c)).all (fun p => eq p.1 p.2)) = true
    · rw [if_pos h]
      simp only [Bool.and_eq_true, decide_eq_true_eq] at h
      refine ⟨rfl, by simpa using h.1, ?_, by simp⟩
      simpa using (all_zip h.1).1 h.2
    · rw [if_neg h]
      have h0 : ∀ (_ : t.length ≤ (a :: c).length), ¬ ∀ k, k < t.length → eq (t.getD k 0) ((a :: c).getD (0 + k) 0) = true := by
        intro hl hk
        simp only [Nat.zero_add] at hk
        exact h (by simp only [Bool.and_eq_true, decide_eq_true_eq]; exact ⟨hl, (all_zip hl).2 hk⟩)
      have hsh : ∀ j k, (a :: c).getD (j + 1 + k) 0 = c.getD (j + k) 0 := by
        intro j k
        rw [show j + 1 + k = (j + k) + 1 by omega]
        rfl
      cases hx : execLiteral eq t c with
      | none =>
        rw [hx] at ih
        simp only [Option.map_none]
        intro i hi
        cases i with
        | zero => exact h0 (by simpa using hi)
        | succ i =>
          simp only [hsh]
          exact ih i (by simp only [List.length_cons] at hi; omega)
      | some p =>
        obtain ⟨i, n⟩ := p
        rw [hx] at ih
        simp only at ih
        obtain ⟨h1, h2, h3, h4⟩ := ih
        simp only [Option.map_some]
        refine ⟨h1, by simp only [List.length_cons]; omega, ?_, ?_⟩
        · simpa only [hsh] using h3
        · intro j hj
          cases j with
          | zero => exact h0 (by simp only [List.length_cons]; omega)
          | succ j =>
            simp only [hsh]
            exact h4 j (by omega)

/-- **C56**, literal searches. The escaped text is read by the browser's regular expressions as the text itself; a line is
always finished; and its text is shown with the places marked where the searched text stands, from the left, without
overlaps. -/
theorem literal_content (eq : UInt16 → UInt16 → Bool) (text line : JsStr) (hne : text ≠ []) :
    ∃ exec, literalExec eq text = some exec ∧ FindsFirst eq text exec ∧
      ∃ html t, contentFor exec (line.length + 1) line true = some html ∧ ShownAs html t ∧ t.map (·.1) = line ∧
        MarkedBy exec line t := by
  refine ⟨execLiteral eq text, by simp [literalExec, parse_escape], execLiteral_first eq text, ?_⟩
  have hff := execLiteral_first eq text
  have hin : Inside (execLiteral eq text) := by
    intro c i n h
    have := hff c
    rw [h] at this
    exact this.2.1
  obtain ⟨html, hh⟩ := content_terminates_partial hin (fun c i n h => by
    have := hff c
    rw [h] at this
    rw [this.1]
    exact List.length_pos_iff.2 hne) line true
  obtain ⟨t, h1, h2, -, h3⟩ := content_exact hin hh
  exact ⟨html, t, hh, h1, h2, h3 rfl⟩

/-! ### Concrete instances -/

-- mark-up in the source is shown, not interpreted
example : contentFor (execLiteral (· == ·) (js b!"b")) 9 (js b!"a<b>&b") true =
    some (js b!"a&lt;<em>b</em>&gt;&amp;<em>b</em>") := by decide
example : ShownAs (js b!"a&lt;<em>b</em>&gt;&amp;<em>b</em>")
    [(97, false), (60, false), (98, true), (62, false), (38, false), (98, true)] := by
  unfold ShownAs
  decide +kernel
-- some other element would not be accepted by the specification
example : shownText 20 false (js b!"a<b>c") = none := by decide
example : escapeRegExp (js b!"f(x) + 1") = js b!"f\\(x\\)\\ \\+\\ 1" := by decide
example : literalExec (· == ·) (js b!"f(x)") ≠ none := by decide
-- an anchored expression is matched again after every hit: `^a` marks both letters of `aa`
example : contentFor (fun c => match c with | 97 :: _ => some (0, 1) | _ => none) 9 (js b!"aab") true =
    some (js b!"<em>a</em><em>a</em>b") := by decide

end Hound.Ui
