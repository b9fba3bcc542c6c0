import Verif.Spec.Ansi
import Verif.Props.Client

/-!
# C96: text is shown in the colours asked for
-/

namespace Hound.Client
open Hound Hound.Spec Hound.Spec.Ansi

/-- The colours there are. -/
def allColours : List Color := [.black, .red, .green, .yellow, .blue, .magenta, .cyan, .white]

theorem mem_allColours (c : Color) : c ∈ allColours := by cases c <;> decide

/-- The place of a colour among the eight of a terminal: black, red, green, yellow, blue, magenta, cyan, white. -/
def place (c : Color) : Nat := allColours.idxOf c

/-- How text is to look. What the style says of the background but whether it is bright does not count. -/
def asked (fg : Color) (fgStyle : Style) (bg : Option Color) (bgStyle : Style) : Look :=
  { bold := fgStyle.bold, blink := fgStyle.blink, underline := fgStyle.underline, inverse := fgStyle.invert,
    front := some (place fg, fgStyle.intense), back := bg.map fun c => (place c, bgStyle.intense) }

/-- The parameters of a colour code, if it is one. -/
def paramsOf (code : Bytes) : Bytes := (code.drop 2).dropLast

theorem code_table : ∀ b1 b2 b3 b4 b5 b6 : Bool, ∀ fg ∈ allColours, ∀ bg ∈ none :: allColours.map some,
    (27 :: 91 :: (paramsOf (colourCode fg ⟨b1, b2, b3, b4, b5⟩ bg ⟨false, false, false, false, b6⟩) ++ [109]) =
        colourCode fg ⟨b1, b2, b3, b4, b5⟩ bg ⟨false, false, false, false, b6⟩ ∧
      (∀ p ∈ paramsOf (colourCode fg ⟨b1, b2, b3, b4, b5⟩ bg ⟨false, false, false, false, b6⟩), (48 ≤ p ∧ p ≤ 57) ∨ p = 59)) ∧
      (numbers 0 (paramsOf (colourCode fg ⟨b1, b2, b3, b4, b5⟩ bg ⟨false, false, false, false, b6⟩))).foldl Look.select {} =
        asked fg ⟨b1, b2, b3, b4, b5⟩ bg ⟨false, false, false, false, b6⟩ := by
  decide +kernel

/-- The code in front of a text. -/
theorem code_read (fg : Color) (fgStyle : Style) (bg : Option Color) (bgStyle : Style) :
    ∃ ps, colourCode fg fgStyle bg bgStyle = 27 :: 91 :: (ps ++ [109]) ∧ IsParams ps ∧
      (numbers 0 ps).foldl Look.select {} = asked fg fgStyle bg bgStyle := by
  obtain ⟨b1, b2, b3, b4, b5⟩ := fgStyle
  have hbg : bg ∈ none :: allColours.map some := by
    cases bg with
    | none => simp
    | some c => exact List.mem_cons_of_mem _ (List.mem_map.2 ⟨c, mem_allColours c, rfl⟩)
  obtain ⟨⟨h1, h2⟩, h3⟩ := code_table b1 b2 b3 b4 b5 bgStyle.intense fg (mem_allColours fg) bg hbg
  have e : colourCode fg ⟨b1, b2, b3, b4, b5⟩ bg bgStyle =
      colourCode fg ⟨b1, b2, b3, b4, b5⟩ bg ⟨false, false, false, false, bgStyle.intense⟩ := rfl
  rw [e]
  exact ⟨_, h1.symm, h2, h3⟩

theorem displays_text {l l' : Look} {out : Bytes} {shown : List (UInt8 × Look)} : ∀ {s : Bytes}, (∀ c ∈ s, c ≠ 27) → Displays l out shown l' →
    Displays l (s ++ out) (s.map (·, l) ++ shown) l'
  | [], _, h => h
  | c :: _, hs, h => .char c (hs c List.mem_cons_self) (displays_text (fun x hx => hs x (List.mem_cons_of_mem _ hx)) h)

theorem displays_append {l l' l'' : Look} {out out' : Bytes} {shown shown' : List (UInt8 × Look)} (h : Displays l out shown l')
    (h' : Displays l' out' shown' l'') : Displays l (out ++ out') (shown ++ shown') l'' := by
  induction h with
  | nil => exact h'
  | char c hc _ ih => exact .char c hc (ih h')
  | code ps hp _ ih =>
    simp only [List.cons_append, List.append_assoc]
    exact .code ps hp (ih h')

theorem params_cut {ps ps' r r' : Bytes} (h : IsParams ps) (h' : IsParams ps') (e : ps ++ 109 :: r = ps' ++ 109 :: r') : ps = ps' ∧ r = r' := by
  induction ps generalizing ps' with
  | nil =>
    cases ps' with
    | nil => simpa using e
    | cons c cs =>
      simp only [List.nil_append, List.cons_append, List.cons.injEq] at e
      have := h' c List.mem_cons_self
      rw [← e.1] at this
      exact absurd this (by decide)
  | cons c cs ih =>
    cases ps' with
    | nil =>
      simp only [List.nil_append, List.cons_append, List.cons.injEq] at e
      have := h c List.mem_cons_self
      rw [e.1] at this
      exact absurd this (by decide)
    | cons c' cs' =>
      simp only [List.cons_append, List.cons.injEq] at e
      obtain ⟨h1, h2⟩ := ih (fun p hp => h p (List.mem_cons_of_mem _ hp)) (fun p hp => h' p (List.mem_cons_of_mem _ hp)) e.2
      exact ⟨by rw [e.1, h1], h2⟩

/-- What a terminal shows is settled by what it is sent. -/
theorem displays_unique {l a b : Look} {out : Bytes} {s t : List (UInt8 × Look)} (h : Displays l out s a) (h' : Displays l out t b) :
    s = t ∧ a = b := by
  induction h generalizing t with
  | nil => cases h'; exact ⟨rfl, rfl⟩
  | char c hc _ ih =>
    cases h' with
    | char _ _ h2 =>
      obtain ⟨h3, h4⟩ := ih h2
      exact ⟨by rw [h3], h4⟩
    | code _ _ _ => exact absurd rfl hc
  | @code _ _ out _ ps hp _ ih =>
    generalize e : (27 :: 91 :: (ps ++ 109 :: out) : Bytes) = w at h'
    cases h' with
    | nil => cases e
    | char c hc _ =>
      injection e with e1 _
      exact absurd e1.symm hc
    | code ps' hp' h2 =>
      simp only [List.cons.injEq, true_and] at e
      obtain ⟨rfl, rfl⟩ := params_cut hp hp' e
      exact ih h2

/-- **C96** With colours, a terminal shows exactly the text, all of it in the colours and styles asked for, and is left as it was; without,
it shows the text as everything else. (The text has no escape characters.) -/
theorem shown_as_asked (s : Bytes) (hs : ∀ c ∈ s, c ≠ 27) (fg : Color) (fgStyle : Style) (bg : Option Color) (bgStyle : Style) :
    Displays {} (fgBg true s fg fgStyle bg bgStyle) (s.map (·, asked fg fgStyle bg bgStyle)) {} ∧
      Displays {} (fgBg false s fg fgStyle bg bgStyle) (s.map (·, {})) {} := by
  constructor
  · obtain ⟨ps, h1, h2, h3⟩ := code_read fg fgStyle bg bgStyle
    have h : fgBg true s fg fgStyle bg bgStyle = 27 :: 91 :: (ps ++ 109 :: (s ++ resetCode)) := by
      simp [fgBg, h1]
    rw [h]
    refine .code ps h2 ?_
    rw [h3]
    have := displays_text hs (Displays.code (l := asked fg fgStyle bg bgStyle) (l' := {}) (out := []) (shown := []) [48] (by simp [IsParams]) (.nil _))
    simpa [resetCode] using this
  · have := displays_text hs (Displays.nil ({} : Look))
    simpa [fgBg] using this

/-- Different things asked for look different. -/
theorem asked_inj {fg fg' : Color} {a a' : Style} {bg bg' : Option Color} {b b' : Style} (h : asked fg a bg b = asked fg' a' bg' b') :
    fg = fg' ∧ a = a' ∧ bg = bg' ∧ (bg ≠ none → b.intense = b'.intense) := by
  have hp : ∀ x y : Color, place x = place y → x = y := by
    intro x y
    cases x <;> cases y <;> decide
  simp only [asked, Look.mk.injEq, Option.some.injEq, Prod.mk.injEq] at h
  obtain ⟨h1, h2, h3, h4, ⟨h5, h6⟩, h7⟩ := h
  refine ⟨hp _ _ h5, ?_, ?_, ?_⟩
  · obtain ⟨_, _, _, _, _⟩ := a
    obtain ⟨_, _, _, _, _⟩ := a'
    simp_all
  · cases bg <;> cases bg' <;> simp at h7
    · rfl
    · rw [hp _ _ h7.1]
  · intro hb
    cases bg <;> cases bg' <;> simp at h7
    · exact absurd rfl hb
    · exact h7.2

theorem lit_const {f : Nat → Bool} {b : Bool} : ∀ (s : Bytes) (k : Nat), (∀ x, k ≤ x → x < k + s.length → f x = b) → lit f k s = s.map (·, b)
  | [], _, _ => rfl
  | c :: s, k, h => by
    rw [lit_cons, h k (Nat.le_refl _) (by simp), lit_const s (k + 1) fun x h1 h2 => h x (by omega) (by simp only [List.length_cons]; omega)]
    rfl

/-- How a match looks: black and bold on bright yellow. Anything else in a line looks like all other text. -/
def matchLook (hit : Bool) : Look := if hit then { bold := true, front := some (0, false), back := some (3, true) } else {}

theorem hiliteFrom_displays (line : Bytes) (hl : ∀ c ∈ line, c ≠ 27) (idxs : List (Nat × Nat)) :
    ∀ beg out, SpansFrom line.length beg idxs → hiliteFrom true line idxs beg = some out →
      Displays {} out ((lit (inSpan idxs) beg (line.drop beg)).map fun p => (p.1, matchLook p.2)) {} := by
  induction idxs with
  | nil =>
    intro beg out h ho
    simp only [SpansFrom] at h
    simp only [hiliteFrom, slice] at ho
    rw [if_pos ⟨h, Nat.le_refl _⟩, List.take_length] at ho
    cases ho
    rw [lit_const (f := inSpan []) (b := false) _ _ (fun _ _ _ => rfl)]
    have := displays_text (s := line.drop beg) (fun c hc => hl c (List.mem_of_mem_drop hc)) (Displays.nil ({} : Look))
    simpa [Function.comp_def, matchLook] using this
  | cons ij r ih =>
    obtain ⟨i, j⟩ := ij
    rintro beg out ⟨h1, h2, h3⟩ ho
    have hle := spans_le h3
    have hmem := spans_mem_le h3
    obtain ⟨out', ho', -⟩ := hiliteFrom_coloured line r j h3
    have hs := ih j out' h3 ho'
    simp only [hiliteFrom, ho', slice, if_pos (show beg ≤ i ∧ i ≤ line.length by omega),
      if_pos (show i ≤ j ∧ j ≤ line.length by omega), Option.some.injEq] at ho
    subst ho
    rw [take_drop_cat (line := line) h1, take_drop_cat (line := line) h2, lit_append, lit_append]
    have l1 : ((line.take i).drop beg).length = i - beg := by
      rw [List.length_drop, List.length_take]; omega
    have l2 : ((line.take j).drop i).length = j - i := by
      rw [List.length_drop, List.length_take]; omega
    rw [l1, l2, show beg + (i - beg) = i by omega, show i + (j - i) = j by omega]
    have hout : ∀ x, j ≤ x → inSpan ((i, j) :: r) x = inSpan r x := by
      intro x hx
      have : ¬ (i ≤ x ∧ x < j) := by omega
      simp [inSpan]
      omega
    rw [lit_congr (line.drop j) j hout, lit_const (b := false) _ beg, lit_const (b := true) _ i]
    · have a1 := displays_text (s := (line.take i).drop beg) (fun c hc => hl c (List.mem_of_mem_take (List.mem_of_mem_drop hc)))
        (Displays.nil ({} : Look))
      have a2 := (shown_as_asked ((line.take j).drop i) (fun c hc => hl c (List.mem_of_mem_take (List.mem_of_mem_drop hc))) .black
        { bold := true } (some .yellow) { intense := true }).1
      have := displays_append (displays_append a1 a2) hs
      have hlk : asked .black { bold := true } (some .yellow) { intense := true } = matchLook true := by decide
      rw [hlk] at this
      simpa [Function.comp_def, matchLook] using this
    · intro x hx1 hx2
      rw [l2] at hx2
      simp only [inSpan, List.any_cons, Bool.or_eq_true, decide_eq_true_eq]
      exact .inl ⟨hx1, by omega⟩
    · intro x hx1 hx2
      rw [l1] at hx2
      unfold inSpan
      rw [List.any_eq_false]
      intro p hp
      rcases List.mem_cons.1 hp with rfl | hp
      · simp; omega
      · have := hmem p hp
        simp
        omega

/-- **C96 for the lines of a search**: the terminal shows the line, with the matches black and bold on bright yellow, and the rest as all other
text. -/
theorem matches_stand_out (find : Bytes → List (Nat × Nat)) (line : Bytes) (hl : ∀ c ∈ line, c ≠ 27)
    (hf : SpansFrom line.length 0 (find line)) :
    ∃ out, hiliteMatches true find line = some out ∧
      Displays {} out ((highlighted (find line) line).map fun p => (p.1, matchLook p.2)) {} := by
  obtain ⟨out, ho, -⟩ := hiliteFrom_coloured line _ 0 hf
  exact ⟨out, ho, hiliteFrom_displays line hl _ 0 out hf ho⟩

/-- The number of a line is yellow and bold; what follows it is not. -/
theorem number_stands_out (n : Int) (hn : 0 ≤ n) (hasMatch : Bool) :
    Displays {} (lineNumber true n hasMatch) ((fmtD n).map (·, { bold := true, front := some (3, false) }) ++
      ((if hasMatch then 58 else 45) :: List.replicate (6 - (fmtD n).length) 32).map (·, ({} : Look))) {} := by
  have hd : ∀ c ∈ fmtD n, c ≠ 27 := by
    intro c hc
    obtain ⟨k, rfl⟩ : ∃ k : Nat, n = k := ⟨n.toNat, by omega⟩
    rcases isParams_fmtD k c hc with ⟨h, -⟩ | rfl
    · rintro rfl
      exact absurd h (by decide)
    · decide
  have h1 := (shown_as_asked (fmtD n) hd .yellow { bold := true } none {}).1
  have h2 := displays_text (s := (if hasMatch then 58 else 45) :: List.replicate (6 - (fmtD n).length) 32) (by
    intro c hc
    rcases List.mem_cons.1 hc with rfl | hc
    · cases hasMatch <;> decide
    · rw [List.eq_of_mem_replicate hc]; decide) (Displays.nil ({} : Look))
  have := displays_append h1 h2
  rw [show asked .yellow { bold := true } none {} = { bold := true, front := some (3, false) } by decide] at this
  simpa [lineNumber, fgOnly] using this

/-- A match, black and bold on bright yellow. -/
example : Displays {} (fgBg true b!"ok" .black { bold := true } (some .yellow) { intense := true })
    [(111, { bold := true, front := some (0, false), back := some (3, true) }), (107, { bold := true, front := some (0, false), back := some (3, true) })] {} ∧
    fgBg true b!"ok" .black { bold := true } (some .yellow) { intense := true } = b!"\x1b[1;30;103mok\x1b[0m" :=
  ⟨(shown_as_asked b!"ok" (by decide) .black { bold := true } (some .yellow) { intense := true }).1, by decide +kernel⟩

end Hound.Client
