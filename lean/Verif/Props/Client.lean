import Verif.Proofs.Client
import Verif.Props.Coalesce

/-!
# C37: what the command line client prints; C52: the names of repositories

`find line` stands for the positions that Go's `FindAllStringIndex` returns for a line: successive
matches that do not overlap (`Spec.SpansFrom`).
-/

namespace Hound.Client
open Spec

/-- **C37**, colours disabled: the highlighted line is the line. -/
theorem hilite_disabled (find : Bytes → List (Nat × Nat)) (line : Bytes)
    (hf : SpansFrom line.length 0 (find line)) : hiliteMatches false find line = some line := by
  unfold hiliteMatches
  rw [hiliteFrom_false line _ 0 hf]
  rfl

/-- **C37**, colours enabled: the highlighted line is the line with colour codes inserted, and a
terminal shows the line with exactly the matches highlighted. -/
theorem hilite_enabled (find : Bytes → List (Nat × Nat)) (line : Bytes)
    (hf : SpansFrom line.length 0 (find line)) :
    ∃ out, hiliteMatches true find line = some out ∧ Coloured out line ∧
      Shows false out (highlighted (find line) line) := by
  obtain ⟨out, ho, hc⟩ := hiliteFrom_coloured line _ 0 hf
  exact ⟨out, ho, hc, hiliteFrom_shows line _ 0 out hf ho⟩

/-- Removing the colour codes is unambiguous for a text without escape characters: nothing but the
line can be got from the output. -/
theorem coloured_unique {out a b : Bytes} (h1 : Coloured out a) (h2 : Coloured out b)
    (ha : (27 : UInt8) ∉ a) (hb : (27 : UInt8) ∉ b) : a = b := coloured_unique' h1 h2 ha hb

theorem present_coloured' (find : Bytes → List (Nat × Nat))
    (hf : ∀ line, SpansFrom line.length 0 (find line)) (ctx : Int) :
    ∀ (rs : List (Bytes × List (Bytes × List LineMatch))) (p : Bytes),
      present false find ctx rs = some p →
      ∃ out, present true find ctx rs = some out ∧ Coloured out p := by
  intro rs
  induction rs with
  | nil => intro p h; cases h; exact ⟨[], rfl, .nil⟩
  | cons r rs ih =>
    obtain ⟨repo, fs⟩ := r
    intro p h
    simp only [present] at h ⊢
    cases h1 : presentFiles false find ctx fs with
    | none => simp [h1] at h
    | some files =>
      cases h2 : present false find ctx rs with
      | none => simp [h1, h2] at h
      | some rest =>
        simp only [h1, h2, Option.some.injEq] at h
        obtain ⟨o1, e1, c1⟩ := coloured_presentFiles find hf _ _ _ h1
        obtain ⟨o2, e2, c2⟩ := ih _ h2
        rw [e1, e2]
        refine ⟨_, rfl, ?_⟩
        rw [← h]
        exact coloured_append (coloured_append (coloured_append
          (coloured_fgBg true repo _ _ _ _) (coloured_refl _)) c1) c2

/-- The rows of a block. -/
def rowsOf (b : Block) : Bytes :=
  ((b.lines.zip b.matches_).zipIdx.map fun p =>
    plainRow (fmtD (b.start + p.2)) p.1.2 p.1.1).flatten

theorem rows_plain (find : Bytes → List (Nat × Nat)) (hf : ∀ line, SpansFrom line.length 0 (find line))
    (start : Int) : ∀ (lines : List Bytes) (flags : List Bool) (i : Nat), lines.length = flags.length →
      blockRows false find start i lines flags = some
        (((lines.zip flags).zipIdx i).map fun p => plainRow (fmtD (start + p.2)) p.1.2 p.1.1).flatten := by
  intro lines
  induction lines with
  | nil => intro flags i _; rfl
  | cons l ls ih =>
    intro flags i h
    cases flags with
    | nil => simp at h
    | cons b flags =>
      simp only [blockRows]
      rw [ih flags (i + 1) (by simpa using h)]
      have hl : (if b then hiliteMatches false find l else some l) = some l := by
        split
        · exact hilite_disabled find l (hf l)
        · rfl
      rw [hl]
      simp [plainRow, lineNumber, fgOnly, fgBg]

theorem fileBlocks_plain (find : Bytes → List (Nat × Nat))
    (hf : ∀ line, SpansFrom line.length 0 (find line)) (ctx : Int) (bs : List Block)
    (hlen : ∀ b ∈ bs, b.matches_.length = b.lines.length) :
    fileBlocks false find ctx bs = some
      (bs.map fun b => rowsOf b ++ if ctx > 0 then [45, 45, 10] else []).flatten := by
  induction bs with
  | nil => rfl
  | cons b bs ih =>
    simp only [fileBlocks]
    rw [ih (fun x hx => hlen x (by simp [hx])), rows_plain find hf _ _ _ 0 (hlen b (by simp)).symm]
    simp [rowsOf]

/-- The plain output for a list of files with their blocks: file name, the rows of every block, a
line of two dashes after a block if context was asked for, an empty line. -/
def plainFiles (ctx : Int) (fs : List (Bytes × List Block)) : Bytes :=
  (fs.map fun f => f.1 ++ [10] ++
    (f.2.map fun b => rowsOf b ++ if ctx > 0 then [45, 45, 10] else []).flatten ++ [10]).flatten

/-- A file as sent by the server, with its matches, and the same file with blocks of its lines. -/
def Served (f : Bytes × List LineMatch) (g : Bytes × List Block) : Prop :=
  g.1 = f.1 ∧ ∃ text, (∀ m ∈ f.2, MatchOf text m) ∧ BlocksFor text f.2 g.2

/-- Some line matcher of some pattern reports these matches for some file content, cut off anywhere. -/
def FromServer (ms : List LineMatch) : Prop :=
  ∃ (mt : Bytes → Option Nat) (acc : LineAcc) (nctx : Nat) (buf : Bytes),
    IsLineMatcher mt acc ∧ ms <+: grepAll mt nctx buf

theorem presentFiles_plain (find : Bytes → List (Nat × Nat))
    (hf : ∀ line, SpansFrom line.length 0 (find line)) (ctx : Int) :
    ∀ (fs : List (Bytes × List LineMatch)), (∀ f ∈ fs, FromServer f.2) →
      ∃ gs : List (Bytes × List Block), Each Served fs gs ∧
        presentFiles false find ctx fs = some (plainFiles ctx gs) := by
  intro fs
  induction fs with
  | nil => intro _; exact ⟨[], .nil, rfl⟩
  | cons f fs ih =>
    obtain ⟨name, ms⟩ := f
    intro h
    obtain ⟨gs, hg, hp⟩ := ih (fun x hx => h x (by simp [hx]))
    obtain ⟨mt, acc, nctx, buf, hmt, hpre⟩ := h (name, ms) (by simp)
    obtain ⟨bs, hb, hfor⟩ := coalesce_server hmt nctx buf ms hpre
    refine ⟨(name, bs) :: gs, .cons ⟨rfl, _, fun m hm => grep_matchOf hmt nctx buf m (hpre.subset hm), hfor⟩ hg, ?_⟩
    simp only [presentFiles, hb, Option.bind_some, hp]
    rw [fileBlocks_plain find hf ctx bs (fun b hm => (hfor.runs b hm).2.1)]
    simp [plainFiles, fgOnly, fgBg]

/-- **C37**, the whole output. For all answers of the server (repositories with names to show, files,
matches): with colours disabled the client prints, for every repository its name, for every file its
name, and row by row the lines of the blocks of C36 with their numbers (`gs`); with colours enabled it
prints this same text with colour codes inserted. No index is out of range in either case. -/
theorem present_exact (find : Bytes → List (Nat × Nat))
    (hf : ∀ line, SpansFrom line.length 0 (find line)) (ctx : Int)
    (rs : List (Bytes × List (Bytes × List LineMatch)))
    (hs : ∀ r ∈ rs, ∀ f ∈ r.2, FromServer f.2) :
    ∃ gs : List (Bytes × List (Bytes × List Block)),
      Each (fun r g => g.1 = r.1 ∧ Each Served r.2 g.2) rs gs ∧
      present false find ctx rs = some (gs.map fun g => g.1 ++ [10] ++ plainFiles ctx g.2).flatten ∧
      ∃ out, present true find ctx rs = some out ∧
        Coloured out (gs.map fun g => g.1 ++ [10] ++ plainFiles ctx g.2).flatten := by
  have h : ∃ gs : List (Bytes × List (Bytes × List Block)),
      Each (fun r g => g.1 = r.1 ∧ Each Served r.2 g.2) rs gs ∧
      present false find ctx rs = some (gs.map fun g => g.1 ++ [10] ++ plainFiles ctx g.2).flatten := by
    induction rs with
    | nil => exact ⟨[], .nil, rfl⟩
    | cons r rs ih =>
      obtain ⟨repo, fs⟩ := r
      obtain ⟨gs, hg, hp⟩ := ih (fun r hr => hs r (by simp [hr]))
      obtain ⟨g, hfg, hfp⟩ := presentFiles_plain find hf ctx fs (hs (repo, fs) (by simp))
      refine ⟨(repo, g) :: gs, .cons ⟨rfl, hfg⟩ hg, ?_⟩
      simp only [present, hfp, hp]
      simp [fgOnly, fgBg]
  obtain ⟨gs, hg, hp⟩ := h
  exact ⟨gs, hg, hp, present_coloured' find hf ctx rs _ hp⟩

/-- The number printed in front of a line is the decimal numeral of its number. -/
theorem lineNumber_numeral (n : Nat) : IsNumeral (fmtD n) n := by
  unfold fmtD
  rw [if_neg (by omega)]
  exact natDigits_numeral n

/-! ### C52: the name shown for a repository -/

theorem suffix_git_iff (name : Bytes) (b : Bytes) (h : name = b ++ [46, 103, 105, 116]) :
    (if [46, 103, 105, 116] <:+ name then name.take (name.length - 4) else name) = b := by
  subst h
  rw [if_pos (List.suffix_append _ _)]
  simp

/-- **C52**. If the client knows the repository and has no display name for it, and its url ends in
`/owner/name` or `/owner/name.git`, the name shown is `owner/name`. -/
theorem repoName_url (repos : Bytes → Option (Bytes × Bytes)) (repo pre owner name ext : Bytes)
    (ho : (47 : UInt8) ∉ owner) (hne : owner ≠ []) (hn : (47 : UInt8) ∉ name)
    (hext : ext = b!".git" ∨ (ext = [] ∧ ¬ b!".git" <:+ name))
    (hr : repos repo = some ([], pre ++ 47 :: owner ++ 47 :: (name ++ ext))) :
    repoNameFor repos repo = some (owner ++ 47 :: name) := by
  have hx : (47 : UInt8) ∉ name ++ ext := by
    intro h
    rcases List.mem_append.1 h with h | h
    · exact hn h
    · rcases hext with rfl | ⟨rfl, -⟩
      · revert h; decide
      · simp at h
  have hu : repoNameFromUrl (pre ++ 47 :: owner ++ 47 :: (name ++ ext)) = some (owner ++ 47 :: name) := by
    unfold repoNameFromUrl
    rw [lastIndexByte_append _ _ hx]
    simp only
    have hname : (pre ++ 47 :: owner ++ 47 :: (name ++ ext)).drop ((pre ++ 47 :: owner).length + 1) =
        name ++ ext := by
      rw [List.drop_append, List.drop_of_length_le (by omega)]
      simp
    rw [hname]
    have hb : (if [46, 103, 105, 116] <:+ name ++ ext then (name ++ ext).take ((name ++ ext).length - 4)
        else name ++ ext) = name := by
      rcases hext with rfl | ⟨rfl, h⟩
      · exact suffix_git_iff _ _ rfl
      · rw [List.append_nil, if_neg h]
    rw [hb, if_neg (by simp)]
    have ht : (pre ++ 47 :: owner ++ 47 :: (name ++ ext)).take ((pre ++ 47 :: owner).length - 1) =
        pre ++ 47 :: owner.dropLast := by
      rw [List.take_append_of_le_length (by omega), ← List.dropLast_eq_take,
        List.dropLast_append_of_ne_nil (by simp)]
      congr 1
      cases owner with
      | nil => exact absurd rfl hne
      | cons a l => rfl
    rw [ht, lastIndexByte_append _ _ (fun h => ho (List.dropLast_subset _ h))]
    simp only
    rw [List.take_append_of_le_length (Nat.le_refl _), List.take_length]
    simp [List.drop_append]
  unfold repoNameFor
  rw [hr]
  simp only [ne_eq, not_true_eq_false, if_false, hu]
  simp

/-- **C52**. A display name is shown as it is, and a repository the client does not know under the
name it has in the answer. -/
theorem repoName_known (repos : Bytes → Option (Bytes × Bytes)) (repo : Bytes) :
    (repos repo = none → repoNameFor repos repo = some repo) ∧
    (∀ d u, repos repo = some (d, u) → d ≠ [] → repoNameFor repos repo = some d) := by
  refine ⟨fun h => by simp [repoNameFor, h], fun d u h hd => by simp [repoNameFor, h, hd]⟩

/-- **C52**, failures. The client stops (slice bound out of range) exactly on a url whose only slash is
its first character, such as `/repo`. -/
theorem repoName_fails_iff (url : Bytes) :
    repoNameFromUrl url = none ↔ ∃ r, url = 47 :: r ∧ (47 : UInt8) ∉ r := by
  by_cases hm : (47 : UInt8) ∈ url
  · obtain ⟨l, r, e, hr⟩ : ∃ l r, url = l ++ 47 :: r ∧ (47 : UInt8) ∉ r := by
      induction url with
      | nil => simp at hm
      | cons c u ih =>
        by_cases hu : (47 : UInt8) ∈ u
        · obtain ⟨l, r, rfl, hr⟩ := ih hu
          exact ⟨c :: l, r, rfl, hr⟩
        · have : c = 47 := by
            rcases List.mem_cons.1 hm with h | h
            · exact h.symm
            · exact absurd h hu
          exact ⟨[], u, by rw [this]; rfl, hu⟩
    have hlast : lastIndexByte url 47 = some l.length := by rw [e]; exact lastIndexByte_append l r hr
    unfold repoNameFromUrl
    simp only [hlast]
    constructor
    · intro h
      by_cases hl : l.length = 0
      · have : l = [] := List.length_eq_zero_iff.1 hl
        subst this
        exact ⟨r, e, hr⟩
      · rw [if_neg hl] at h
        split at h <;> simp at h
    · rintro ⟨r', e', hr'⟩
      have : l.length = 0 := by
        have h1 : lastIndexByte url 47 = some 0 := by
          rw [e']; exact lastIndexByte_append [] r' hr'
        rw [h1] at hlast
        exact (Option.some.inj hlast).symm
      rw [if_pos this]
  · unfold repoNameFromUrl
    simp only [lastIndexByte_none hm]
    constructor
    · intro h; simp at h
    · rintro ⟨r, rfl, -⟩; simp at hm

/-- `/repo` is such a url. -/
theorem repoName_panics : repoNameFromUrl b!"/repo" = none := by decide

/-! ### Concrete instances -/

/-- `find` for the pattern `x`, for the examples. -/
def exFind (line : Bytes) : List (Nat × Nat) :=
  (line.zipIdx.filter fun p => p.1 = 120).map fun p => (p.2, p.2 + 1)

example : SpansFrom 5 0 (exFind b!"axbxc") ∧ exFind b!"axbxc" = [(1, 2), (3, 4)] := by
  refine ⟨?_, by decide⟩
  rw [show exFind b!"axbxc" = [(1, 2), (3, 4)] by decide]
  simp [SpansFrom]
example : hiliteMatches true exFind b!"axb" = some b!"a\x1b[1;30;103mx\x1b[0mb" := by decide
example : hiliteMatches false exFind b!"axb" = some b!"axb" := by decide
example : highlighted [(1, 2)] b!"axb" = [(97, false), (120, true), (98, false)] := by decide
example : present false exFind 1 [(b!"repo", [(b!"f", [⟨b!"x1", 12, [b!"a"], []⟩])])] =
    some b!"repo\nf\n11-    a\n12:    x1\n--\n\n" := by decide
example : repoNameFromUrl b!"https://github.com/owner/name.git" = some b!"owner/name" := by decide

end Hound.Client
