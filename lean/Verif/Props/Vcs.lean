import Verif.Proofs.Vcs
import Verif.Proofs.Grep

/-!
# C38, C39, C50, C53: the version control drivers (`vcs/`)
-/

namespace Hound.Vcs
open Spec

/-! ## C38: the branch that is fetched and checked out -/

theorem namesHead_ne {out b : Bytes} (h : NamesHead out b) : b ≠ [] := by
  obtain ⟨_, _, _, hb, _⟩ := h
  exact hb

theorem targetRef_selected {W : Type} (g : GitDriver) (sh : Sh W) (w : W) (dir : Bytes) :
    SelectedRef g (sh w ⟨dir, [b!"git", b!"remote", b!"show", b!"origin"]⟩).1.1 (targetRef g sh w dir).1 ∧
    (targetRef g sh w dir).2 =
      if g.ref = [] ∧ g.detectRef = true then
        (sh w ⟨dir, [b!"git", b!"remote", b!"show", b!"origin"]⟩).2 else w := by
  unfold targetRef
  simp only
  by_cases hr : g.ref = []
  · rw [if_neg (not_not_intro hr)]
    cases hd : g.detectRef with
    | true =>
      simp only [if_true, hr, and_self]
      unfold detectRef run
      simp only
      cases hf : findHeadBranch (sh w ⟨dir, [b!"git", b!"remote", b!"show", b!"origin"]⟩).1.1 with
      | none =>
        simp only [Option.getD_none, if_true, and_true]
        refine .default hr (.inr ?_)
        rintro ⟨b, hb⟩
        rw [findHeadBranch_of hb] at hf
        cases hf
      | some b =>
        have hb := findHeadBranch_some hf
        simp only [Option.getD_some, if_neg (namesHead_ne hb), and_true]
        exact .detected hr hd hb
    | false =>
      simp only [Bool.false_eq_true, if_false, and_false, if_true, and_true]
      exact .default hr (.inl hd)
  · simp only [if_pos (show g.ref ≠ [] from hr), hr, false_and, if_false, and_true]
    exact .configured hr

theorem selectedRef_unique {g : GitDriver} {out a b : Bytes} (ha : SelectedRef g out a)
    (hb : SelectedRef g out b) : a = b := by
  cases ha with
  | configured h => cases hb with
    | configured => rfl
    | detected h' => exact absurd h' h
    | default h' => exact absurd h' h
  | detected h h1 h2 => cases hb with
    | configured h' => exact absurd h h'
    | detected _ _ h3 => exact namesHead_unique h2 h3
    | default _ h3 => rcases h3 with h3 | h3
                      · rw [h1] at h3; cases h3
                      · exact absurd ⟨_, h2⟩ h3
  | default h h1 => cases hb with
    | configured h' => exact absurd h h'
    | detected _ h2 h3 => rcases h1 with h1 | h1
                          · rw [h1] at h2; cases h2
                          · exact absurd ⟨_, h3⟩ h1
    | default => rfl

/-- An environment that answers commands depending on everything that was run before. -/
def logSh (ans : List Cmd → Cmd → Bytes × Bool) : Sh (List Cmd) := fun h c => (ans h c, h ++ [c])

/-- **C38**. Whatever the commands answer, updating a git clone runs: the question for the default
branch (only if no branch is configured and detection is on), a fetch of the selected branch into its
remote-tracking branch, a hard reset to this remote-tracking branch, and the question for the head,
in this order and nothing else. The selected branch is the one of `Spec.SelectedRef`. -/
theorem git_pull_commands (g : GitDriver) (ans : List Cmd → Cmd → Bytes × Bool) (h : List Cmd)
    (dir : Bytes) :
    let ask : Cmd := ⟨dir, [b!"git", b!"remote", b!"show", b!"origin"]⟩
    ∃ ref, SelectedRef g (ans h ask).1 ref ∧
      (gitPull g (logSh ans) h dir).2 = h ++ (if g.ref = [] ∧ g.detectRef = true then [ask] else []) ++
        [⟨dir, [b!"git", b!"fetch", b!"--prune", b!"--no-tags", b!"--depth", b!"1", b!"origin",
            b!"+" ++ ref ++ b!":remotes/origin/" ++ ref]⟩,
         ⟨dir, [b!"git", b!"reset", b!"--hard", b!"origin/" ++ ref]⟩,
         ⟨dir, [b!"git", b!"rev-parse", b!"HEAD"]⟩] := by
  intro ask
  obtain ⟨h1, h2⟩ := targetRef_selected g (logSh ans) h dir
  refine ⟨_, h1, ?_⟩
  unfold gitPull
  simp only [run, gitHeadRev, headRevBy, logSh] at h2 ⊢
  rw [h2]
  split
  · simp [fetchArgs, resetArgs, ask]
  · simp [fetchArgs, resetArgs]

/-- **C38**. If git behaves like git (`Spec.GitLike`) and the remote has the selected branch, then
updating checks its commit out and reports it as the revision. -/
theorem git_pull_fresh {W : Type} (g : GitDriver) (sh : Sh W) (view : W → GitView) (dir : Bytes)
    (hgit : GitLike sh view dir) (w : W) (r c : Bytes)
    (hr : SelectedRef g (sh w ⟨dir, [b!"git", b!"remote", b!"show", b!"origin"]⟩).1.1 r)
    (href : IsRef r) (hrem : (view w).remote r = some c) (hc : IsCommit c) :
    (gitPull g sh w dir).1 = some c ∧ (view (gitPull g sh w dir).2).head = some c := by
  obtain ⟨h1, h2⟩ := targetRef_selected g sh w dir
  have e := selectedRef_unique h1 hr
  have hv : view (targetRef g sh w dir).2 = view w := by
    rw [h2]
    split
    · exact hgit.show_origin w
    · rfl
  unfold gitPull
  simp only [run, gitHeadRev, headRevBy, e, fetchArgs, resetArgs]
  have f := hgit.fetch_ok (targetRef g sh w dir).2 r c href (by rw [hv]; exact hrem)
  simp only at f
  generalize (sh (targetRef g sh w dir).2 _) = x1 at f ⊢
  have rs := hgit.reset_ok x1.2 r c href f.2.1
  simp only at rs
  generalize (sh x1.2 _) = x2 at rs ⊢
  have rp := hgit.rev_parse x2.2 c rs.2.1
  simp only at rp
  generalize (sh x2.2 _) = x3 at rp ⊢
  rw [rp.1]
  simp only [if_true]
  exact ⟨by rw [trimSpace_commit hc], by rw [rp.2]; exact rs.2.1⟩

/-- **C38**. The first clone ends with the same steps, in the new directory; if `git clone` fails,
an error is returned and nothing else is run. -/
theorem git_clone_fresh {W : Type} (g : GitDriver) (sh : Sh W) (view : W → GitView) (par rep url : Bytes)
    (hgit : GitLike sh view (par ++ 47 :: rep)) (hrep : (47 : UInt8) ∉ rep) (w : W) :
    let x := sh w ⟨par ++ [47], [b!"git", b!"clone", b!"--depth", b!"1", url, rep]⟩
    (x.1.2 = false → gitClone g sh w (par ++ 47 :: rep) url = (none, x.2)) ∧
    (x.1.2 = true → ∀ r c,
      SelectedRef g (sh x.2 ⟨par ++ 47 :: rep, [b!"git", b!"remote", b!"show", b!"origin"]⟩).1.1 r →
      IsRef r → (view x.2).remote r = some c → IsCommit c →
      (gitClone g sh w (par ++ 47 :: rep) url).1 = some c ∧
      (view (gitClone g sh w (par ++ 47 :: rep) url).2).head = some c) := by
  intro x
  have hp : pathSplit (par ++ 47 :: rep) = (par ++ [47], rep) := by
    unfold pathSplit
    rw [lastIndexByte_append _ _ hrep]
    have : par.take (par.length + 1) = par := List.take_of_length_le (by omega)
    simp [List.take_append, List.drop_append, this]
  have hx : gitClone g sh w (par ++ 47 :: rep) url =
      if x.1.2 then gitPull g sh x.2 (par ++ 47 :: rep) else (none, x.2) := by
    unfold gitClone
    simp only [hp]
    rfl
  refine ⟨fun h => by rw [hx, h]; rfl, fun h r c h1 h2 h3 h4 => ?_⟩
  rw [hx, h]
  exact git_pull_fresh g sh view _ hgit x.2 r c h1 h2 h3 h4

/-! ## C53: a failed update is reported -/

/-- **C53** for Mercurial, Subversion and Bazaar: an update that returns a revision has run its pull
command successfully, and the revision is what the head command printed after it. -/
theorem simple_pull_reports {W : Type} (d : Simple) (sh : Sh W) (w : W) (dir rev : Bytes)
    (h : (simplePull d sh w dir).1 = some rev) :
    (sh w ⟨dir, d.pull⟩).1.2 = true ∧
    (sh (sh w ⟨dir, d.pull⟩).2 ⟨dir, d.head⟩).1.2 = true ∧
    rev = Api.trimSpace (sh (sh w ⟨dir, d.pull⟩).2 ⟨dir, d.head⟩).1.1 := by
  unfold simplePull headRevBy at h
  simp only at h
  cases h1 : (sh w ⟨dir, d.pull⟩).1.2 with
  | false => rw [h1] at h; simp at h
  | true =>
    rw [h1] at h
    simp only [if_true] at h
    cases h2 : (sh (sh w ⟨dir, d.pull⟩).2 ⟨dir, d.head⟩).1.2 with
    | false => rw [h2] at h; simp at h
    | true =>
      rw [h2] at h
      simp only [if_true, Option.some.injEq] at h
      exact ⟨rfl, rfl, h.symm⟩

/-- **C53** for the first copy with Mercurial, Subversion and Bazaar: it is made by the tool's command in the parent directory, under the
name of the directory; the revision is what the head command printed in the directory after it. If the command fails, this is
reported and no other command is run. -/
theorem simple_clone_reports {W : Type} (d : Simple) (sh : Sh W) (w : W) (par rep url : Bytes) (hrep : (47 : UInt8) ∉ rep) :
    let x := sh w ⟨par ++ [47], d.clone url rep⟩
    (x.1.2 = false → simpleClone d sh w (par ++ 47 :: rep) url = (none, x.2)) ∧
    ∀ rev, (simpleClone d sh w (par ++ 47 :: rep) url).1 = some rev →
      x.1.2 = true ∧ (sh x.2 ⟨par ++ 47 :: rep, d.head⟩).1.2 = true ∧
      rev = Api.trimSpace (sh x.2 ⟨par ++ 47 :: rep, d.head⟩).1.1 := by
  intro x
  have hp : pathSplit (par ++ 47 :: rep) = (par ++ [47], rep) := by
    unfold pathSplit
    rw [lastIndexByte_append _ _ hrep]
    have : par.take (par.length + 1) = par := List.take_of_length_le (by omega)
    simp [List.take_append, List.drop_append, this]
  have hx : simpleClone d sh w (par ++ 47 :: rep) url =
      if x.1.2 then headRevBy d.head sh x.2 (par ++ 47 :: rep) else (none, x.2) := by
    unfold simpleClone
    simp only [hp]
    rfl
  refine ⟨fun h => by rw [hx, h]; rfl, fun rev h => ?_⟩
  rw [hx] at h
  cases h1 : x.1.2 with
  | false => rw [h1] at h; simp at h
  | true =>
    rw [h1] at h
    simp only [if_true, headRevBy] at h
    cases h2 : (sh x.2 ⟨par ++ 47 :: rep, d.head⟩).1.2 with
    | false => rw [h2] at h; simp at h
    | true =>
      rw [h2] at h
      simp only [if_true, Option.some.injEq] at h
      exact ⟨rfl, rfl, h.symm⟩

example : ∃ sh : Sh Nat, (simpleClone hg sh 0 (b!"/d" ++ 47 :: b!"c") b!"u").1 = some b!"ab" :=
  ⟨fun w _ => ((b!"ab\n", true), w + 1), by decide +kernel⟩

/-- The full statement of **C53** for git: a revision is reported only if it is the commit the remote
has for the selected branch. It is false of the code (`not_gitReportsFull`), because failures of fetch
and reset are only logged. -/
def GitReportsFull : Prop :=
  ∀ (W : Type) (g : GitDriver) (sh : Sh W) (view : W → GitView) (dir : Bytes), GitLike sh view dir →
    ∀ (w : W) (r rev : Bytes),
      SelectedRef g (sh w ⟨dir, [b!"git", b!"remote", b!"show", b!"origin"]⟩).1.1 r → IsRef r →
      (∀ c, (view w).head = some c → IsCommit c) → (gitPull g sh w dir).1 = some rev →
      (view w).remote r = some rev

/-- A simulated git for the examples. -/
def exGit : Sh GitView := fun v c =>
  match c.args with
  | [_, _, _, spec] =>
    if spec = b!"origin" then ((b!"* remote origin\n  HEAD branch: main\n", true), v)
    else
      let r := spec.drop 7
      match v.tracking r with
      | some c => (([], true), { v with head := some c })
      | none => (([], false), v)
  | [_, _, _] =>
    match v.head with
    | some c => ((c ++ [NL], true), v)
    | none => (([], false), v)
  | [_, _, _, _, _, _, _, spec] =>
    let r := (spec.drop 1).takeWhile (· ≠ 58)
    match v.remote r with
    | some c => (([], true), { v with tracking := fun x => if x = r then some c else v.tracking x })
    | none => (([], false), v)
  | _ => (([], false), v)

theorem isRef_noColon {r : Bytes} (h : IsRef r) : ∀ c ∈ r, c ≠ 58 := by
  intro c hc
  rcases h.2 c hc with h | h | h | h | h | h | h <;> rintro rfl <;> revert h <;> decide

theorem exGit_like (dir : Bytes) : GitLike exGit id dir := by
  have hspec : ∀ r : Bytes, IsRef r →
      ((b!"+" ++ r ++ b!":remotes/origin/" ++ r).drop 1).takeWhile (fun x => decide (x ≠ 58)) = r := by
    intro r hr
    have e : (b!"+" ++ r ++ b!":remotes/origin/" ++ r).drop 1 = r ++ (b!":remotes/origin/" ++ r) := by simp
    rw [e]
    exact takeWhile_append_of (fun x hx => by simpa using isRef_noColon hr x hx)
      (.inr ⟨58, rfl, by decide⟩)
  have horigin : ∀ r : Bytes, b!"origin/" ++ r ≠ b!"origin" := by
    intro r h
    have := congrArg List.length h
    simp at this
  constructor
  · intro w r c hr hrem
    simp only [exGit, hspec r hr]
    have : w.remote r = some c := hrem
    rw [this]
    simp
  · intro w r hr hrem
    simp only [exGit, hspec r hr]
    have : w.remote r = none := hrem
    rw [this]
    simp
  · intro w r c hr ht
    simp only [exGit, if_neg (horigin r)]
    have e : (b!"origin/" ++ r).drop 7 = r := by simp
    have : w.tracking r = some c := ht
    rw [e, this]
    simp
  · intro w r hr ht
    simp only [exGit, if_neg (horigin r)]
    have e : (b!"origin/" ++ r).drop 7 = r := by simp
    have : w.tracking r = none := ht
    rw [e, this]
    simp
  · intro w c hc
    have : w.head = some c := hc
    simp only [exGit, this]
    simp
  · intro w
    simp [exGit]

/-- The remote cannot be reached: the old commit stays checked out. -/
def exStale : GitView where
  remote := fun _ => none
  tracking := fun r => if r = b!"master" then some b!"0a1b" else none
  head := some b!"0a1b"

theorem isRef_master : IsRef b!"master" := ⟨by simp, by decide⟩
theorem isRef_main : IsRef b!"main" := ⟨by simp, by decide⟩

/-- **C53 fails for git**: with the remote out of reach the update reports success with the old
revision. -/
theorem not_gitReportsFull : ¬ GitReportsFull := by
  intro h
  have := h GitView {} exGit id b!"/d" (exGit_like _) exStale b!"master" b!"0a1b"
    (.default rfl (.inl rfl)) isRef_master
    (by intro c hc; cases hc; exact ⟨by simp, by decide⟩) (by decide +kernel)
  simp [exStale] at this

/-- **C53**, for git's first fetch: a clone that fails is reported and no other command is run. -/
theorem git_clone_reports {W : Type} (g : GitDriver) (sh : Sh W) (w : W) (dir url : Bytes)
    (h : (sh w ⟨(pathSplit dir).1, [b!"git", b!"clone", b!"--depth", b!"1", url, (pathSplit dir).2]⟩).1.2 = false) :
    gitClone g sh w dir url =
      (none, (sh w ⟨(pathSplit dir).1, [b!"git", b!"clone", b!"--depth", b!"1", url, (pathSplit dir).2]⟩).2) := by
  unfold gitClone; simp only [h]; rfl

example : ∃ sh : Sh Nat, (sh 0 ⟨(pathSplit b!"/a/b").1, [b!"git", b!"clone", b!"--depth", b!"1", b!"u",
    (pathSplit b!"/a/b").2]⟩).1.2 = false := ⟨fun w _ => (([], false), w + 1), rfl⟩

/-- What holds for git (**C53**): if the remote has the selected branch, the revision reported is the
remote's commit of this branch (this is `git_pull_fresh`); if it has not, the clone keeps what it has
and reports that. -/
theorem git_reports_partial {W : Type} (g : GitDriver) (sh : Sh W) (view : W → GitView) (dir : Bytes)
    (hgit : GitLike sh view dir) (w : W) (r old : Bytes)
    (hr : SelectedRef g (sh w ⟨dir, [b!"git", b!"remote", b!"show", b!"origin"]⟩).1.1 r)
    (href : IsRef r) (hrem : (view w).remote r = none)
    (hold : ((view w).tracking r).or (view w).head = some old) (hc : IsCommit old) :
    (gitPull g sh w dir).1 = some old ∧ (view (gitPull g sh w dir).2).head = some old := by
  obtain ⟨h1, h2⟩ := targetRef_selected g sh w dir
  have e := selectedRef_unique h1 hr
  have hv : view (targetRef g sh w dir).2 = view w := by
    rw [h2]
    split
    · exact hgit.show_origin w
    · rfl
  unfold gitPull
  simp only [run, gitHeadRev, headRevBy, e, fetchArgs, resetArgs]
  have f := hgit.fetch_fail (targetRef g sh w dir).2 r href (by rw [hv]; exact hrem)
  simp only at f
  generalize (sh (targetRef g sh w dir).2 _) = x1 at f ⊢
  rw [hv] at f
  cases ht : (view w).tracking r with
  | some c =>
    rw [ht] at hold
    simp only [Option.some_or, Option.some.injEq] at hold
    subst hold
    have rs := hgit.reset_ok x1.2 r c href (by rw [f.2]; exact ht)
    simp only at rs
    generalize (sh x1.2 _) = x2 at rs ⊢
    have rp := hgit.rev_parse x2.2 c rs.2.1
    simp only at rp
    generalize (sh x2.2 _) = x3 at rp ⊢
    rw [rp.1]
    simp only [if_true]
    exact ⟨by rw [trimSpace_commit hc], by rw [rp.2]; exact rs.2.1⟩
  | none =>
    rw [ht] at hold
    simp only [Option.none_or] at hold
    have rs := hgit.reset_fail x1.2 r href (by rw [f.2]; exact ht)
    simp only at rs
    generalize (sh x1.2 _) = x2 at rs ⊢
    rw [f.2] at rs
    have rp := hgit.rev_parse x2.2 old (by rw [rs.2]; exact hold)
    simp only at rp
    generalize (sh x2.2 _) = x3 at rp ⊢
    rw [rp.1]
    simp only [if_true]
    exact ⟨by rw [trimSpace_commit hc], by rw [rp.2, rs.2]; exact hold⟩

/-! ### Concrete instances -/

-- an answer of `git remote show origin`
example : findHeadBranch b!"* remote origin\n  Fetch URL: u\n  HEAD branch: main\n  Remote branch:\n" =
    some b!"main" := by decide +kernel
example : NamesHead b!"x HEAD branch: main\nrest" b!"main" := findHeadBranch_some (by decide +kernel)
-- detection on, the remote has `main`: its commit is reported
example : (gitPull { detectRef := true } exGit
    { remote := fun r => if r = b!"main" then some b!"beef" else none, tracking := fun _ => none,
      head := some b!"0a1b" } b!"/d").1 = some b!"beef" := by decide +kernel
-- the hypotheses of `git_pull_fresh` are met there
example : SelectedRef { detectRef := true } (exGit exStale
    ⟨b!"/d", [b!"git", b!"remote", b!"show", b!"origin"]⟩).1.1 b!"main" :=
  .detected rfl rfl (findHeadBranch_some (by decide +kernel))
-- a repository without default branch is answered `(unknown)`, which is then taken for a branch
example : findHeadBranch b!"  HEAD branch: (unknown)\n" = some b!"(unknown)" := by decide +kernel

/-! ## C39: files marked as generated -/

/-- **C39**. For all outputs of `git check-attr -z`, the list consists exactly of the paths of the
records with attribute `linguist-generated` and value `true`, in the order of the output. -/
theorem autogen_exact_partial (rs : List AttrRecord) (h : NulFree rs) :
    autoGenerated (attrOutput rs) =
      (rs.filter fun r => decide (r.info = b!"true" ∧ r.attr = b!"linguist-generated")).map (·.path) := by
  unfold autoGenerated
  rw [split_attrOutput h, generatedTokens_records]

/-- The full statement of **C39**: an attribute is also on when it is merely set (`*.pb.go
linguist-generated` in `.gitattributes`, value `set`). It is false of the code. -/
def AutoGenFull : Prop :=
  ∀ rs : List AttrRecord, NulFree rs → ∀ p, p ∈ autoGenerated (attrOutput rs) ↔
    ∃ r ∈ rs, r.path = p ∧ r.attr = b!"linguist-generated" ∧ (r.info = b!"true" ∨ r.info = b!"set")

/-- **C39 fails for attributes that are set without a value**. -/
theorem not_autoGenFull : ¬ AutoGenFull := by
  intro h
  have hn : NulFree [⟨b!"a.pb.go", b!"linguist-generated", b!"set"⟩] := by
    intro r hr
    rw [List.mem_singleton.1 hr]
    refine ⟨by decide, by decide, by decide⟩
  have := (h [⟨b!"a.pb.go", b!"linguist-generated", b!"set"⟩] hn b!"a.pb.go").2
    ⟨_, List.mem_singleton.2 rfl, rfl, rfl, .inr rfl⟩
  rw [autogen_exact_partial _ hn] at this
  revert this
  decide +kernel

example : autoGenerated (attrOutput [⟨b!"a.go", b!"linguist-generated", b!"unspecified"⟩,
    ⟨b!"b.go", b!"linguist-generated", b!"true"⟩]) = [b!"b.go"] := by decide +kernel

/-! ## C50: local directories -/

/-- **C50**, unwatched. The revision is the text after the last `vcs-` in the path of the working
directory, whatever files there are; without `vcs-` in the path it is an error. -/
theorem local_unwatched (H : Bytes → Bytes) (dir : Bytes) (files : List Bytes)
    (read : Bytes → Option Bytes) :
    (localHeadRev H false dir files read = none ↔ ¬ b!"vcs-" <:+: dir) ∧
    ∀ rev, localHeadRev H false dir files read = some rev →
      ∃ p, dir = p ++ b!"vcs-" ++ rev ∧ ∀ p' r', dir = p' ++ b!"vcs-" ++ r' → p'.length ≤ p.length := by
  have hs := lastIndexSub_spec b!"vcs-" (by simp) dir
  unfold localHeadRev
  simp only [Bool.not_false, if_true]
  cases h : lastIndexSub b!"vcs-" dir with
  | none => exact ⟨by simpa using hs.1.1 h, by simp⟩
  | some i =>
    obtain ⟨h1, h2⟩ := hs.2 i h
    refine ⟨?_, ?_⟩
    · simp only [reduceCtorEq, false_iff, Decidable.not_not]
      exact ⟨dir.take i, dir.drop (i + 4), h1.symm⟩
    · intro rev hr
      cases hr
      refine ⟨dir.take i, h1, ?_⟩
      intro p' r' hp
      have hle := h2 p' r' hp
      have : i ≤ dir.length := by
        have := congrArg List.length h1
        simp only [List.length_append, List.length_take, List.length_drop, List.length_cons,
          List.length_nil] at this
        omega
      rw [List.length_take]
      omega

/-- The revision of a watched directory does not depend on the order in which its files are listed. -/
theorem local_order (H : Bytes → Bytes) (dir dir' : Bytes) (a b : List Bytes)
    (read : Bytes → Option Bytes) (h : a.Perm b) :
    localHeadRev H true dir a read = localHeadRev H true dir' b read := by
  unfold localHeadRev myHash
  simp only [Bool.not_true, Bool.false_eq_true, if_false]
  rw [sortStrings_eq h]

/-- The content of the file `name`. -/
def contentOf (fs : List (Bytes × Bytes)) (name : Bytes) : Option Bytes :=
  (fs.find? fun p => p.1 = name).map (·.2)

theorem contentOf_mem {fs : List (Bytes × Bytes)} (h : IsDirState fs) {n c : Bytes} :
    contentOf fs n = some c ↔ (n, c) ∈ fs := by
  unfold IsDirState at h
  unfold contentOf
  induction fs with
  | nil => simp
  | cons p fs ih =>
    obtain ⟨m, d⟩ := p
    simp only [List.map_cons, List.nodup_cons] at h
    simp only [List.find?_cons]
    by_cases hm : m = n
    · subst hm
      simp only [decide_true, Option.map_some, Option.some.injEq, List.mem_cons, Prod.mk.injEq, true_and]
      constructor
      · rintro rfl; exact .inl rfl
      · rintro (rfl | hc)
        · rfl
        · exact absurd (List.mem_map.2 ⟨_, hc, rfl⟩) h.1
    · simp only [hm, decide_false]
      rw [ih h.2]
      simp [Ne.symm hm]

/-- The revision of a watched directory in the state `fs`. -/
def watchedRev (H : Bytes → Bytes) (fs : List (Bytes × Bytes)) : Option Bytes :=
  localHeadRev H true [] (fs.map (·.1)) (contentOf fs)

/-- Two different texts with the same hash: both contents of files, or both lists of files with
the hashes of their contents, of the two states. -/
def Collision (H : Bytes → Bytes) (a b : List (Bytes × Bytes)) : Prop :=
  (∃ p ∈ a, ∃ q ∈ b, p.2 ≠ q.2 ∧ H p.2 = H q.2) ∨
  (∃ s t, s ≠ t ∧ H s = H t ∧
    (∃ l : List (Bytes × Bytes), l.Perm (a.map fun p => (p.1, H p.2)) ∧ s = (l.map fun p => hexOf p.2 ++ b!"  " ++ p.1 ++ [NL]).flatten) ∧
    (∃ l : List (Bytes × Bytes), l.Perm (b.map fun p => (p.1, H p.2)) ∧ t = (l.map fun p => hexOf p.2 ++ b!"  " ++ p.1 ++ [NL]).flatten))

theorem hashText_listing (H : Bytes → Bytes) {fs : List (Bytes × Bytes)} (hd : IsDirState fs) :
    ∀ (names : List Bytes) (t : Bytes), hashText H (contentOf fs) names = some t →
      ∃ l : List (Bytes × Bytes), l.map (·.1) = names ∧ (∀ p ∈ l, ∃ c, (p.1, c) ∈ fs ∧ p.2 = H c) ∧
        t = (l.map fun p => hexOf p.2 ++ b!"  " ++ p.1 ++ [NL]).flatten := by
  intro names
  induction names with
  | nil => intro t h; simp only [hashText, Option.some.injEq] at h; subst h; exact ⟨[], rfl, by simp, rfl⟩
  | cons n names ih =>
    intro t h
    simp only [hashText] at h
    split at h
    · simp at h
    · split at h
      · rename_i c rest hc hrest
        simp only [Option.some.injEq] at h
        obtain ⟨l, h1, h2, h3⟩ := ih rest hrest
        refine ⟨(n, H c) :: l, by simp [h1], ?_, ?_⟩
        · intro p hp
          rcases List.mem_cons.1 hp with rfl | hp
          · exact ⟨c, (contentOf_mem hd).1 hc, rfl⟩
          · exact h2 p hp
        · rw [← h, h3]; simp
      · simp at h

theorem listing_perm (H : Bytes → Bytes) {fs l : List (Bytes × Bytes)} (hd : IsDirState fs)
    (hn : (l.map (·.1)).Perm (fs.map (·.1))) (hl : ∀ p ∈ l, ∃ c, (p.1, c) ∈ fs ∧ p.2 = H c) :
    l.Perm (fs.map fun p => (p.1, H p.2)) := by
  have hnd : (l.map (·.1)).Nodup := hn.nodup_iff.2 hd
  have hl1 : l.Nodup := by
    refine (List.pairwise_map.1 hnd).imp ?_
    intro a b hab h
    exact hab (by rw [h])
  have hl2 : (fs.map fun p => (p.1, H p.2)).Nodup := by
    refine List.pairwise_map.2 ((List.pairwise_map.1 hd).imp ?_)
    intro a b hab h
    exact hab (by simpa using (congrArg Prod.fst h))
  refine (List.perm_ext_iff_of_nodup hl1 hl2).2 ?_
  rintro ⟨n, x⟩
  simp only [List.mem_map, Prod.mk.injEq]
  constructor
  · intro hm
    obtain ⟨c, hc, rfl⟩ := hl _ hm
    exact ⟨(n, c), hc, rfl, rfl⟩
  · rintro ⟨⟨m, c⟩, hc, rfl, rfl⟩
    have : m ∈ l.map (·.1) := hn.symm.subset (List.mem_map.2 ⟨_, hc, rfl⟩)
    obtain ⟨⟨m', y⟩, hy, rfl⟩ := List.mem_map.1 this
    obtain ⟨c', hc', hy'⟩ := hl _ hy
    simp only at hc' hy'
    have : c' = c := by
      have h1 := (contentOf_mem hd).2 hc'
      rw [(contentOf_mem hd).2 hc] at h1
      exact (Option.some.inj h1).symm
    subst this
    simpa [hy'] using hy

/-- **C50**, watched. If two states of a watched directory have the same revision, they consist of the
same files with the same contents -- or the hash function maps two different texts, both computed from
these states, to the same value. So adding, removing, renaming or changing a file changes the
revision unless there is such a collision. -/
theorem local_watched (H : Bytes → Bytes) (a b : List (Bytes × Bytes)) (ha : IsDirState a)
    (hb : IsDirState b) (rev : Bytes) (h1 : watchedRev H a = some rev) (h2 : watchedRev H b = some rev) :
    a.Perm b ∨ Collision H a b := by
  unfold watchedRev localHeadRev myHash at h1 h2
  simp only [Bool.not_true, Bool.false_eq_true, if_false, Option.map_eq_some_iff] at h1 h2
  obtain ⟨s, hs, e1⟩ := h1
  obtain ⟨t, ht, e2⟩ := h2
  have hst : H s = H t := hexOf_inj (e1.trans e2.symm)
  by_cases hne : s = t
  · subst hne
    obtain ⟨hsort, hall⟩ := hashText_inj H hs ht
    by_cases hcol : ∃ p ∈ a, ∃ q ∈ b, p.2 ≠ q.2 ∧ H p.2 = H q.2
    · exact .inr (.inl hcol)
    · left
      have hn : (a.map (·.1)).Perm (b.map (·.1)) :=
        (sortStrings_perm _).symm.trans (hsort ▸ sortStrings_perm _)
      have hl1 : a.Nodup := (List.pairwise_map.1 ha).imp fun hab h => hab (by rw [h])
      have hl2 : b.Nodup := (List.pairwise_map.1 hb).imp fun hab h => hab (by rw [h])
      have key : ∀ n x, (n, x) ∈ a → (n, x) ∈ b := by
        intro n x hx
        obtain ⟨x', y, hx', hy, hxy⟩ := hall n (mem_sortStrings.2 (List.mem_map.2 ⟨_, hx, rfl⟩))
        have e : x' = x := by
          rw [(contentOf_mem ha).2 hx] at hx'
          exact (Option.some.inj hx').symm
        subst e
        have hyb := (contentOf_mem hb).1 hy
        have : x' = y := by
          refine Decidable.byContradiction fun hne => hcol ⟨_, hx, _, hyb, hne, hxy⟩
        rw [this]; exact hyb
      refine (List.perm_ext_iff_of_nodup hl1 hl2).2 ?_
      rintro ⟨n, x⟩
      refine ⟨key n x, fun hx => ?_⟩
      have : n ∈ a.map (·.1) := hn.symm.subset (List.mem_map.2 ⟨_, hx, rfl⟩)
      obtain ⟨⟨n', z⟩, hz, rfl⟩ := List.mem_map.1 this
      have h3 := key _ _ hz
      have : z = x := by
        have h4 := (contentOf_mem hb).2 h3
        rw [(contentOf_mem hb).2 hx] at h4
        exact (Option.some.inj h4).symm
      rw [← this]; exact hz
  · right; right
    refine ⟨s, t, hne, hst, ?_, ?_⟩
    · obtain ⟨l, hl1, hl2, hl3⟩ := hashText_listing H ha _ _ hs
      exact ⟨l, listing_perm H ha (hl1 ▸ sortStrings_perm _) hl2, hl3⟩
    · obtain ⟨l, hl1, hl2, hl3⟩ := hashText_listing H hb _ _ ht
      exact ⟨l, listing_perm H hb (hl1 ▸ sortStrings_perm _) hl2, hl3⟩

/-- **C50**, watched: there is a revision if no name contains a newline; otherwise an error. -/
theorem local_watched_succeeds (H : Bytes → Bytes) (fs : List (Bytes × Bytes)) (hd : IsDirState fs) :
    (watchedRev H fs).isSome ↔ ∀ p ∈ fs, NL ∉ p.1 := by
  have key : ∀ names : List Bytes, (∀ n ∈ names, ∃ c, (n, c) ∈ fs) →
      ((hashText H (contentOf fs) names).isSome ↔ ∀ n ∈ names, NL ∉ n) := by
    intro names
    induction names with
    | nil => simp [hashText]
    | cons n names ih =>
      intro h
      obtain ⟨c, hc⟩ := h n (by simp)
      have ih := ih (fun m hm => h m (by simp [hm]))
      simp only [hashText]
      by_cases hn : NL ∈ n
      · rw [if_pos hn]; simp [hn]
      · rw [if_neg hn, (contentOf_mem hd).2 hc]
        cases hr : hashText H (contentOf fs) names with
        | none => rw [hr] at ih; simp at ih ⊢; intro _; exact ih
        | some r => rw [hr] at ih; simp at ih ⊢; exact ⟨hn, ih⟩
  unfold watchedRev localHeadRev myHash
  simp only [Bool.not_true, Bool.false_eq_true, if_false, Option.isSome_map]
  rw [key _ (by
    intro n hn
    obtain ⟨p, hp, rfl⟩ := List.mem_map.1 (mem_sortStrings.1 hn)
    exact ⟨p.2, hp⟩)]
  constructor
  · intro h p hp
    exact h p.1 (mem_sortStrings.2 (List.mem_map.2 ⟨p, hp, rfl⟩))
  · intro h n hn
    obtain ⟨p, hp, rfl⟩ := List.mem_map.1 (mem_sortStrings.1 hn)
    exact h p hp

-- a toy hash function and two states
example : watchedRev id [(b!"b", b!"2"), (b!"a", b!"1")] = watchedRev id [(b!"a", b!"1"), (b!"b", b!"2")] ∧
    watchedRev id [(b!"a", b!"1")] ≠ watchedRev id [(b!"a", b!"2")] := by decide +kernel
example : IsDirState [(b!"b", b!"2"), (b!"a", b!"1")] := by unfold IsDirState; decide
example : localHeadRev id false b!"/data/vcs-abc" [] (fun _ => none) = some b!"abc" := by decide +kernel

end Hound.Vcs
