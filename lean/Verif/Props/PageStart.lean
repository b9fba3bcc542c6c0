import Verif.Spec.Boot
import Verif.Props.Answer
import Verif.Props.Config

namespace Hound.Boot
open Spec JsonText Wire
open Hound.Config (Json)

/-! ### Finding a text -/

/-- No occurrence of `pat` begins in `c`, whatever follows. -/
def safe (pat : Bytes) : Bytes → Bool
  | [] => true
  | x :: t => !(pat.isPrefixOf (x :: t)) && !((x :: t).isPrefixOf pat) && safe pat t

theorem cut_safe {pat c : Bytes} (h : safe pat c = true) (s : Bytes) :
    cut pat (c ++ s) = (cut pat s).map fun r => (c ++ r.1, r.2) := by
  induction c with
  | nil => rw [List.nil_append]; cases cut pat s <;> rfl
  | cons x t ih =>
    simp only [safe, Bool.and_eq_true, Bool.not_eq_true'] at h
    obtain ⟨⟨h1, h2⟩, h3⟩ := h
    have hn : pat.isPrefixOf (x :: (t ++ s)) = false := by
      cases hp : pat.isPrefixOf (x :: (t ++ s)) with
      | false => rfl
      | true =>
        have hp : pat <+: (x :: t) ++ s := List.isPrefixOf_iff_prefix.1 hp
        rcases List.prefix_or_prefix_of_prefix hp (List.prefix_append (x :: t) s) with h | h
        · rw [List.isPrefixOf_iff_prefix.2 h] at h1; cases h1
        · rw [List.isPrefixOf_iff_prefix.2 h] at h2; cases h2
    rw [List.cons_append, cut, hn, ih h3]
    cases cut pat s <;> rfl

theorem cut_here {pat : Bytes} (s : Bytes) : cut pat (pat ++ s) = some ([], s) := by
  cases pat with
  | nil => cases s <;> rfl
  | cons x t =>
    rw [List.cons_append, cut, if_pos (List.isPrefixOf_iff_prefix.2 (show (x :: t) <+: (x :: (t ++ s)) from ⟨s, rfl⟩))]
    simp

theorem safe_of_absent {x : UInt8} {pat c : Bytes} (h : x ∉ c) : safe (x :: pat) c = true := by
  induction c with
  | nil => rfl
  | cons y t ih =>
    have hy : x ≠ y := fun e => h (by simp [e])
    simp [safe, List.isPrefixOf, ih fun m => h (by simp [m]), hy, Ne.symm hy]

/-! ### What is escaped -/

theorem htmlEscape_clean (s : Bytes) : (60 : UInt8) ∉ htmlEscape s := by
  intro h
  obtain ⟨b, _, hb⟩ := List.mem_flatMap.1 h
  exact Url.forall_u8 (P := fun b => (60 : UInt8) ∉ htmlByte b) (by decide +kernel) b hb

theorem escP_clean (p : Rune × Bool) : 60 ∉ escP p := by
  have hq : ∀ b : UInt8, b < 128 → (60 : UInt8) ∉ quoteByte b :=
    Url.forall_u8 (by decide +kernel)
  intro h
  rw [escP] at h
  split at h
  · revert h; decide
  · split at h
    · rename_i hp
      obtain ⟨x, hx, e⟩ := List.mem_map.1 h
      have e : x = 60 := UInt8.toNat_inj.1 (by rw [e]; rfl)
      subst e
      refine hq _ ?_ hx
      rw [UInt8.lt_iff_toNat_lt]
      simp only [UInt8.toNat_ofNat']
      exact Nat.lt_of_le_of_lt (Nat.mod_le _ _) hp
    · rename_i hp
      split at h
      · rename_i h3
        rcases h3 with h3 | h3 <;> rw [h3] at h <;> revert h <;> decide
      · have : 60 = p.1 := by simpa using h
        exact hp (by rw [← this]; decide)

theorem rq_clean (s : Bytes) : 60 ∉ rq s := by
  intro h
  obtain ⟨p, _, hp⟩ := List.mem_flatMap.1 h
  exact escP_clean p hp

theorem clean_bytes {rs : List Nat} (hv : AllValid rs) (h : 60 ∉ rs) : (60 : UInt8) ∉ rs.flatMap encodeRaw := by
  intro hm
  obtain ⟨r, hr, hb⟩ := List.mem_flatMap.1 hm
  by_cases hl : r < 128
  · have e : goCode r = [r] := goCoding.ascii r hl
    have : (60 : Nat) ∈ goCode r := List.mem_map.2 ⟨60, hb, rfl⟩
    rw [e] at this
    have : 60 = r := by simpa using this
    exact h (this ▸ hr)
  · have := goCoding.other r (hv r hr) (Nat.not_lt.1 hl) 60 (List.mem_map.2 ⟨60, hb, rfl⟩)
    omega

theorem jsValue_clean (s : Bytes) : (60 : UInt8) ∉ jsValue s := by
  rw [jsValue, text_eq]
  refine clean_bytes (rtext_valid _) ?_
  simp only [rtext, List.mem_cons, List.mem_append, List.not_mem_nil, or_false]
  intro h
  rcases h with h | h | h
  · cases h
  · exact rq_clean s h
  · cases h

/-! ### The page -/

/-- The part of the page before the script. -/
def before (title host : Bytes) : Bytes :=
  part1 ++ (htmlEscape title ++ (part2 ++ (htmlEscape (urlNormal host) ++ (part3 ++ (htmlEscape title ++
    part4.take (part4.length - 8))))))

def scriptText (repos : List (Bytes × Config.Repo)) : Bytes :=
  part5 ++ (jsValue (text (Config.reposJson repos)) ++ part6)

theorem part4_eq : part4 = part4.take (part4.length - 8) ++ b!"<script>" := by decide +kernel

theorem part7_eq : part7 = b!"</script" ++ part7.drop 8 := by decide +kernel

theorem cut_parts {pat a s : Bytes} (h : safe pat a = true) {x y : Bytes} (hs : cut pat s = some (x, y)) :
    cut pat (a ++ s) = some (a ++ x, y) := by
  rw [cut_safe h, hs]; rfl

theorem firstScript_eq (title host source : Bytes) (repos : List (Bytes × Config.Repo)) :
    firstScript (indexPage title host source repos) = some (scriptText repos) := by
  have h1 : ∀ rest, cut b!"<script>" (part1 ++ (htmlEscape title ++ (part2 ++ (htmlEscape (urlNormal host) ++ (part3 ++
      (htmlEscape title ++ (part4 ++ rest))))))) = some (before title host, rest) := by
    intro rest
    have hc := fun s => safe_of_absent (pat := b!"script>") (htmlEscape_clean s)
    refine cut_parts (by decide +kernel) (cut_parts (hc _) (cut_parts (by decide +kernel) (cut_parts (hc _)
      (cut_parts (by decide +kernel) (cut_parts (hc _) ?_)))))
    have : cut b!"<script>" (part4.take (part4.length - 8) ++ (b!"<script>" ++ rest)) =
        some (part4.take (part4.length - 8) ++ [], rest) := cut_parts (by decide +kernel) (cut_here rest)
    rw [← List.append_assoc, ← part4_eq, List.append_nil] at this
    exact this
  have h2 : ∀ rest, cut b!"</script" (part5 ++ (jsValue (text (Config.reposJson repos)) ++ (part6 ++ (part7 ++ rest)))) =
      some (scriptText repos, part7.drop 8 ++ rest) := by
    intro rest
    refine cut_parts (by decide +kernel) (cut_parts (safe_of_absent (jsValue_clean _)) ?_)
    have : cut b!"</script" (part6 ++ (b!"</script" ++ (part7.drop 8 ++ rest))) = some (part6 ++ [], part7.drop 8 ++ rest) :=
      cut_parts (by decide +kernel) (cut_here _)
    rw [← List.append_assoc b!"</script", ← part7_eq, List.append_nil] at this
    exact this
  rw [firstScript, between, indexPage, h1, Option.bind_some]
  show (cut b!"</script" _).map _ = _
  rw [h2]
  rfl

/-! ### What the script says -/

theorem text_utf8 (v : Json) : forPage (text v) = (rtext v).flatMap Ui.units := by
  rw [forPage, text_eq, characters_unique (chars_characters _) (characters_text (rtext_valid v))]

theorem jsParse_text (v : Json) : jsParse (forPage (text v)) = some (conv forPage v) := by
  have e : ((rtext v).flatMap Ui.units).map UInt16.toNat = (rtext v).flatMap jsCode := by
    rw [List.map_flatMap]; rfl
  have := value_text (g := forPage) (unq := fun s => jsUnquote s.length s) jsCoding jsStrings v ((rtext v).flatMap jsCode).length.succ [] (Nat.le_refl _)
    (fun c t h => by cases h)
  rw [List.append_nil] at this
  rw [jsParse, text_utf8, e, readValue, this]
  rfl

theorem modelData_eq (repos : List (Bytes × Config.Repo)) :
    modelData (bodyText (scriptText repos)) = some (forPage (text (Config.reposJson repos))) := by
  generalize hs : text (Config.reposJson repos) = s
  have e : scriptText repos = (part5.map UInt8.toNat ++ (rtext (.str s) ++ part6.map UInt8.toNat)).flatMap encodeRaw := by
    rw [scriptText, hs, jsValue, text_eq, List.flatMap_append, List.flatMap_append, encodeRaw_ascii (by decide +kernel),
      encodeRaw_ascii (by decide +kernel)]
  have hv : AllValid (part5.map UInt8.toNat ++ (rtext (.str s) ++ part6.map UInt8.toNat)) :=
    allValid_append (allValid_ascii (by decide +kernel)) (allValid_append (rtext_valid _) (allValid_ascii (by decide +kernel)))
  have hb : (bodyText (scriptText repos)).map UInt16.toNat =
      part5.map UInt8.toNat ++ (34 :: ((rq s).flatMap jsCode ++ 34 :: part6.map UInt8.toNat)) := by
    rw [e, bodyText, bodyLoop_eq _ hv _ (Nat.le_refl _), List.map_flatMap]
    show List.flatMap jsCode _ = _
    rw [List.flatMap_append, List.flatMap_append, flatMap_ascii jsCoding (by decide +kernel),
      flatMap_ascii jsCoding (l := part6.map UInt8.toNat) (by decide +kernel)]
    simp only [rtext]
    rw [code_cons jsCoding (by decide), List.flatMap_append, flatMap_ascii jsCoding (l := [34]) (by decide)]
    simp
  rw [modelData, hb]
  have hw : ∀ r, word (b!"var ModelData = \"".map UInt8.toNat) (skip (part5.map UInt8.toNat ++ 34 :: r)) = some r := fun r => rfl
  rw [hw]
  have hl : scanStr ((rq s).flatMap jsCode ++ 34 :: part6.map UInt8.toNat) = some ((rq s).flatMap jsCode, part6.map UInt8.toNat) :=
    scan_lit jsCoding (pieces_sound s) _
  simp only [hl]
  exact jsStrings s

theorem startPage_eq (title host source : Bytes) (repos : List (Bytes × Config.Repo)) :
    startPage (indexPage title host source repos) = loadRepos (conv forPage (Config.reposJson repos)) := by
  rw [startPage, firstScript_eq, Option.bind_some, modelData_eq, Option.bind_some, jsParse_text, Option.bind_some]

/-! ### The repositories -/

theorem conv_repo (r : Config.Repo) : ∃ a b c e f g h : Value Ui.JsStr, conv forPage (Config.repoJson r) =
    .obj [(Ui.js b!"url", .str (forPage r.url)), (Ui.js b!"display-name", .str (forPage r.displayName)),
      (Ui.js b!"ms-between-poll", a), (Ui.js b!"vcs", b), (Ui.js b!"vcs-config", c),
      (Ui.js b!"url-pattern", conv forPage (Config.urlPatternJson r.urlPattern)), (Ui.js b!"exclude-dot-files", e),
      (Ui.js b!"enable-poll-updates", f), (Ui.js b!"enable-push-updates", g), (Ui.js b!"auto-generated-files", h)] := by
  simp only [Config.repoJson, conv, convMembers, convMember]
  rw [forPage_ascii (l := b!"url") (by decide), forPage_ascii (l := b!"display-name") (by decide),
    forPage_ascii (l := b!"ms-between-poll") (by decide), forPage_ascii (l := b!"vcs") (by decide),
    forPage_ascii (l := b!"vcs-config") (by decide), forPage_ascii (l := b!"url-pattern") (by decide),
    forPage_ascii (l := b!"exclude-dot-files") (by decide), forPage_ascii (l := b!"enable-poll-updates") (by decide),
    forPage_ascii (l := b!"enable-push-updates") (by decide), forPage_ascii (l := b!"auto-generated-files") (by decide)]
  exact ⟨_, _, _, _, _, _, _, rfl⟩

theorem conv_pattern (u : Config.UrlPattern) : conv forPage (Config.urlPatternJson (some u)) =
    .obj [(Ui.js b!"base-url", .str (forPage u.baseUrl)), (Ui.js b!"anchor", .str (forPage u.anchor))] := by
  simp only [Config.urlPatternJson, conv, convMembers, convMember]
  rw [forPage_ascii (l := b!"base-url") (by decide), forPage_ascii (l := b!"anchor") (by decide)]

theorem pageRepo_obj (u d p q : Ui.JsStr) (a b c e f g h : Value Ui.JsStr) :
    pageRepo (.obj [(Ui.js b!"url", .str u), (Ui.js b!"display-name", .str d),
      (Ui.js b!"ms-between-poll", a), (Ui.js b!"vcs", b), (Ui.js b!"vcs-config", c),
      (Ui.js b!"url-pattern", .obj [(Ui.js b!"base-url", .str p), (Ui.js b!"anchor", .str q)]), (Ui.js b!"exclude-dot-files", e),
      (Ui.js b!"enable-poll-updates", f), (Ui.js b!"enable-push-updates", g), (Ui.js b!"auto-generated-files", h)]) =
    some ⟨u, d, p, q⟩ := rfl

/-- What the page has of a repository. -/
def shown (r : Config.Repo) : PageRepo :=
  ⟨forPage r.url, forPage r.displayName, forPage (r.urlPattern.getD ⟨[], []⟩).baseUrl, forPage (r.urlPattern.getD ⟨[], []⟩).anchor⟩

theorem pageRepo_repo {r : Config.Repo} (h : r.urlPattern ≠ none) :
    pageRepo (conv forPage (Config.repoJson r)) = some (shown r) := by
  obtain ⟨a, b, c, e, f, g, h', he⟩ := conv_repo r
  obtain ⟨u, hu⟩ := Option.ne_none_iff_exists'.1 h
  rw [he, hu, conv_pattern, pageRepo_obj, shown, hu]
  rfl

theorem knows_shown {r : Config.Repo} (h : r.urlPattern ≠ none) : Knows r (shown r) := by
  obtain ⟨u, hu⟩ := Option.ne_none_iff_exists'.1 h
  refine ⟨page_has _, page_has _, u, hu, ?_⟩
  rw [shown, hu]
  exact ⟨page_has _, page_has _⟩

theorem loadRepos_eq {repos : List (Bytes × Config.Repo)} (h : Servable repos) : ∃ sorted, List.Perm sorted repos ∧
    loadRepos (conv forPage (Config.reposJson repos)) =
      some ((sorted.filter fun e => e.1 ≠ b!"__proto__").map fun e => (forPage e.1, shown e.2)) := by
  obtain ⟨sorted, hp, he⟩ := marshal_sorted Config.repoJson repos
  have hn : (sorted.map (·.1)).Nodup := (hp.map _).nodup_iff.2 h.once
  have hu : ∀ e ∈ sorted, ValidUtf8 e.1 := fun e m => h.names e (hp.mem_iff.1 m)
  refine ⟨sorted, hp, ?_⟩
  rw [Config.reposJson, he, conv, convMembers_map, List.map_map, loadRepos]
  have hl : ((sorted.map fun e => (forPage e.1, conv forPage (Config.repoJson e.2))).map (·.1)).Nodup := by
    rw [List.map_map]
    have := nodup_forPage hn fun n hn => by
      obtain ⟨e, he, rfl⟩ := List.mem_map.1 hn
      exact hu e he
    rw [List.map_map] at this
    exact this
  show allSome _ ((lastMembers (sorted.map fun e => (forPage e.1, conv forPage (Config.repoJson e.2)))).filter _) = _
  rw [lastMembers_nodup hl, List.filter_map]
  have hf : (sorted.filter ((fun e : Ui.JsStr × Value Ui.JsStr => decide (e.1 ≠ Ui.js b!"__proto__")) ∘
      fun e => (forPage e.1, conv forPage (Config.repoJson e.2)))) = sorted.filter fun e => e.1 ≠ b!"__proto__" := by
    refine List.filter_congr fun e m => ?_
    have ha : forPage b!"__proto__" = Ui.js b!"__proto__" := forPage_ascii (by decide)
    simp only [Function.comp_apply, ← ha, decide_eq_decide]
    exact not_congr ⟨fun e' => forPage_inj (hu e m) (utf8_ascii (by decide)) e', fun e' => by rw [e']⟩
  rw [hf]
  exact allSome_map (l := sorted.filter fun e => e.1 ≠ b!"__proto__") (f := fun e => (pageRepo e.2).map fun v => (e.1, v))
    (k := fun e => (forPage e.1, conv forPage (Config.repoJson e.2)))
    (h := fun e => (forPage e.1, shown e.2)) fun e m => by
      simp only [pageRepo_repo (h.links e (hp.mem_iff.1 (List.mem_filter.1 m).1))]
      rfl

theorem page_has_unique {s : Bytes} {a b : Ui.JsStr} (ha : PageHas s a) (hb : PageHas s b) : a = b := by
  obtain ⟨x, hx, rfl⟩ := ha
  obtain ⟨y, hy, rfl⟩ := hb
  rw [characters_unique hx hy]

/-! ### C67: the page starts with the repositories that are served -/

/-- C67: whatever is in the configuration and in the address the page was asked for under, the script of the page ends
where it should, and contains no `<`. -/
theorem script_intact (title host source : Bytes) (repos : List (Bytes × Config.Repo)) : ∃ script,
    firstScript (indexPage title host source repos) = some script ∧ (60 : UInt8) ∉ script ∧
    b!"\n        var ModelData = " <+: script ∧ b!";\n        " <:+ script := by
  refine ⟨_, firstScript_eq title host source repos, ?_, List.prefix_append _ _, ?_⟩
  · rw [scriptText]
    simp only [List.mem_append]
    rintro (h | h | h)
    · revert h; decide +kernel
    · exact jsValue_clean _ h
    · revert h; decide +kernel
  · rw [scriptText, ← List.append_assoc]
    exact List.suffix_append _ _

/-- The full claim of C67 for the repositories. -/
def KnowsAllFull : Prop := ∀ (title host source : Bytes) (repos : List (Bytes × Config.Repo)), Servable repos →
  ∃ known, startPage (indexPage title host source repos) = some known ∧ KnowsAll repos known

/-- C67: the page knows exactly the repositories that are served, if none is named `__proto__`. -/
theorem page_knows_partial (title host source : Bytes) {repos : List (Bytes × Config.Repo)} (h : Servable repos)
    (hp : b!"__proto__" ∉ repos.map (·.1)) : ∃ known,
    startPage (indexPage title host source repos) = some known ∧ KnowsAll repos known := by
  obtain ⟨sorted, hs, he⟩ := loadRepos_eq h
  have hf : (sorted.filter fun e => e.1 ≠ b!"__proto__") = sorted := by
    rw [List.filter_eq_self]
    intro e m
    refine decide_eq_true fun e' => hp ?_
    rw [← e']
    exact List.mem_map.2 ⟨e, hs.mem_iff.1 m, rfl⟩
  rw [hf] at he
  refine ⟨_, by rw [startPage_eq]; exact he, ?_, ?_, ?_⟩
  · rw [List.map_map]
    have := nodup_forPage ((hs.map (·.1)).nodup_iff.2 h.once) fun n hn => by
      obtain ⟨e, he, rfl⟩ := List.mem_map.1 hn
      exact h.names e (hs.mem_iff.1 he)
    rw [List.map_map] at this
    exact this
  · intro n r hm
    exact ⟨_, _, List.mem_map.2 ⟨_, hs.mem_iff.2 hm, rfl⟩, page_has n, knows_shown (h.links _ hm)⟩
  · intro k p hm
    obtain ⟨⟨n, r⟩, hx, e⟩ := List.mem_map.1 hm
    cases e
    exact ⟨n, r, hs.mem_iff.1 hx, page_has n, knows_shown (h.links (n, r) (hs.mem_iff.1 hx))⟩

/-- C67: of a repository named `__proto__` the page knows nothing; of the others it knows all. -/
theorem page_knows_exact (title host source : Bytes) {repos : List (Bytes × Config.Repo)} (h : Servable repos) :
    ∃ known, startPage (indexPage title host source repos) = some known ∧
    KnowsAll (repos.filter fun e => e.1 ≠ b!"__proto__") known := by
  obtain ⟨sorted, hs, he⟩ := loadRepos_eq h
  have hs' := hs.filter fun e => e.1 ≠ b!"__proto__"
  refine ⟨_, by rw [startPage_eq]; exact he, ?_, ?_, ?_⟩
  · rw [List.map_map]
    have hsub : ((sorted.filter fun e => e.1 ≠ b!"__proto__").map (·.1)).Nodup :=
      ((List.filter_sublist).map _).nodup ((hs.map (·.1)).nodup_iff.2 h.once)
    have := nodup_forPage hsub fun n hn => by
      obtain ⟨e, he, rfl⟩ := List.mem_map.1 hn
      exact h.names e (hs.mem_iff.1 (List.mem_filter.1 he).1)
    rw [List.map_map] at this
    exact this
  · intro n r hm
    exact ⟨_, _, List.mem_map.2 ⟨_, hs'.mem_iff.2 hm, rfl⟩, page_has n, knows_shown (h.links _ (List.mem_filter.1 hm).1)⟩
  · intro k p hm
    obtain ⟨⟨n, r⟩, hx, e⟩ := List.mem_map.1 hm
    cases e
    exact ⟨n, r, hs'.mem_iff.1 hx, page_has n, knows_shown (h.links (n, r) (hs.mem_iff.1 (List.mem_filter.1 hx).1))⟩

/-- A repository as it is after loading. -/
def sampleRepo : Config.Repo where
  url := b!"https://example.com/a/b.git"
  urlPattern := some ⟨b!"{url}/blob/{rev}/{path}{anchor}", b!"#L{line}"⟩

theorem servable_one {n : Bytes} (h : ∀ b ∈ n, b < 128) : Servable [(n, sampleRepo)] where
  once := by simp
  names := fun e m => by rw [List.mem_singleton.1 m]; exact utf8_ascii h
  links := fun e m => by rw [List.mem_singleton.1 m]; exact fun c => by cases c

theorem not_knowsAllFull : ¬ KnowsAllFull := by
  intro h
  obtain ⟨known, h1, h2⟩ := h [] [] [] [(b!"__proto__", sampleRepo)] (servable_one (by decide))
  obtain ⟨known', h3, h4⟩ := page_knows_exact [] [] [] (repos := [(b!"__proto__", sampleRepo)]) (servable_one (by decide))
  rw [h1] at h3
  cases h3
  obtain ⟨k, p, hk, _⟩ := h2.every _ _ (List.mem_singleton.2 rfl)
  obtain ⟨n, r, hm, _⟩ := h4.only k p hk
  simp at hm

/-! ### The title -/

/-- What is escaped reads as it was. -/
theorem htmlEscape_reads (title : Bytes) : ReadAs (htmlEscape title) (nulReplaced title) := by
  have hb : ∀ (c : UInt8) (h t : Bytes), ReadAs h t → ReadAs (htmlByte c ++ h) ((if c = 0 then [0xEF, 0xBF, 0xBD] else [c]) ++ t) := by
    intro c h t hr
    rw [htmlByte]
    by_cases h0 : c = 0
    · rw [if_pos h0, if_pos h0]
      exact .plain (by decide) (by decide) (by decide) (.plain (by decide) (by decide) (by decide)
        (.plain (by decide) (by decide) (by decide) hr))
    · rw [if_neg h0, if_neg h0]
      by_cases h1 : c = 34
      · rw [if_pos h1, h1]; exact .reference (by simp [references]) hr
      rw [if_neg h1]
      by_cases h2 : c = 38
      · rw [if_pos h2, h2]; exact .reference (by simp [references]) hr
      rw [if_neg h2]
      by_cases h3 : c = 39
      · rw [if_pos h3, h3]; exact .reference (by simp [references]) hr
      rw [if_neg h3]
      by_cases h4 : c = 43
      · rw [if_pos h4, h4]; exact .reference (by simp [references]) hr
      rw [if_neg h4]
      by_cases h5 : c = 60
      · rw [if_pos h5, h5]; exact .reference (by simp [references]) hr
      rw [if_neg h5]
      by_cases h6 : c = 62
      · rw [if_pos h6, h6]; exact .reference (by simp [references]) hr
      rw [if_neg h6]
      exact .plain h2 h5 h0 hr
  induction title with
  | nil => exact .nil
  | cons c t ih => exact hb c _ _ ih

/-- C67: the title of the page reads as it is configured. -/
theorem title_shown (title host source : Bytes) (repos : List (Bytes × Config.Repo)) : ∃ t,
    between b!"<title>" b!"</title" (indexPage title host source repos) = some t ∧ ReadAs t (nulReplaced title) := by
  have e1 : part1 = part1.take (part1.length - 7) ++ b!"<title>" := by decide +kernel
  have e2 : part2 = b!"</title" ++ part2.drop 7 := by decide +kernel
  refine ⟨htmlEscape title, ?_, ?_⟩
  · have h1 : ∀ rest, cut b!"<title>" (part1 ++ rest) = some (part1.take (part1.length - 7), rest) := by
      intro rest
      have : cut b!"<title>" (part1.take (part1.length - 7) ++ (b!"<title>" ++ rest)) =
          some (part1.take (part1.length - 7) ++ [], rest) := cut_parts (by decide +kernel) (cut_here rest)
      rw [← List.append_assoc, ← e1, List.append_nil] at this
      exact this
    have h2 : ∀ rest, cut b!"</title" (htmlEscape title ++ (part2 ++ rest)) = some (htmlEscape title, part2.drop 7 ++ rest) := by
      intro rest
      have : cut b!"</title" (htmlEscape title ++ (b!"</title" ++ (part2.drop 7 ++ rest))) =
          some (htmlEscape title ++ [], part2.drop 7 ++ rest) :=
        cut_parts (safe_of_absent (htmlEscape_clean _)) (cut_here _)
      rw [← List.append_assoc b!"</title", ← e2, List.append_nil] at this
      exact this
    rw [between, indexPage, h1, Option.bind_some]
    show (cut b!"</title" _).map _ = _
    rw [h2]
    rfl
  · exact htmlEscape_reads title

/-! ### Which repositories are served -/

theorem collect_fold (n : Bytes) : ∀ (rs : List (Bytes × Except Bytes Nat)) (m : (Bytes → Option Nat) × (Bytes → Option Bytes)),
    (rs.map (·.1)).Nodup →
    (rs.foldl (fun m r =>
      match r.2 with
      | .error e => (m.1, fun n => if n = r.1 then some e else m.2 n)
      | .ok s => (fun n => if n = r.1 then some s else m.1 n, m.2)) m).1 n =
      (match rs.lookup n with | some (.ok s) => some s | _ => m.1 n) ∧
    (rs.foldl (fun m r =>
      match r.2 with
      | .error e => (m.1, fun n => if n = r.1 then some e else m.2 n)
      | .ok s => (fun n => if n = r.1 then some s else m.1 n, m.2)) m).2 n =
      (match rs.lookup n with | some (.error e) => some e | _ => m.2 n) := by
  intro rs
  induction rs with
  | nil => intro m _; exact ⟨rfl, rfl⟩
  | cons r rs ih =>
    intro m hn
    obtain ⟨k, o⟩ := r
    rw [List.map_cons, List.nodup_cons] at hn
    rw [List.foldl_cons, List.lookup_cons]
    refine ⟨(ih _ hn.2).1.trans ?_, (ih _ hn.2).2.trans ?_⟩
    all_goals
      by_cases hk : n = k
      · have hl : rs.lookup n = none := by
          cases hl : rs.lookup n with
          | none => rfl
          | some v =>
            have hid : (rs.map fun e => (e.1, id e.2)) = rs := by simp
            rw [← hid] at hl
            obtain ⟨v', hv, _⟩ := lookup_map hl
            exact absurd (List.mem_map.2 ⟨_, hv, rfl⟩) (hk ▸ hn.1)
        have hb : (n == k) = true := by simp [hk]
        rw [hl, hb]
        cases o <;> simp [hk]
      · have hb : (n == k) = false := by simp [hk]
        rw [hb]
        cases o <;> simp [hk]

/-- C67: of the configured repositories those are served, and so on the page, that can be searched; every configured
repository has a searcher or an error. -/
theorem served_searchable {repos : List (Bytes × Config.Repo)} {rs : List (Bytes × Except Bytes Nat)}
    (hn : (repos.map (·.1)).Nodup) (h : (rs.map (·.1)).Perm (repos.map (·.1))) (n : Bytes) :
    (∃ r, (n, r) ∈ served repos (Up.collect rs).2) ↔ (Up.collect rs).1 n ≠ none := by
  have ho : (rs.map (·.1)).Nodup := h.nodup_iff.2 hn
  obtain ⟨h1, h2⟩ := collect_fold n rs (fun _ => none, fun _ => none) ho
  have h1 : (Up.collect rs).1 n = _ := h1
  have h2 : (Up.collect rs).2 n = _ := h2
  have hid : (rs.map fun e => (e.1, id e.2)) = rs := by simp
  rw [h1]
  simp only [served, List.mem_filter, Option.isNone_iff_eq_none]
  rw [h2]
  constructor
  · rintro ⟨r, hr, he⟩
    obtain ⟨⟨n', o⟩, ho', e⟩ := List.mem_map.1 (h.mem_iff.2 (List.mem_map.2 ⟨_, hr, rfl⟩))
    cases e
    have := lookup_mem (f := id) ho ho'
    rw [hid] at this
    rw [this] at he ⊢
    cases o with
    | error e => cases he
    | ok s => exact fun c => by cases c
  · intro hs
    cases hl : rs.lookup n with
    | none => rw [hl] at hs; exact absurd rfl hs
    | some o =>
      rw [hl] at hs
      have hl' := hl
      rw [← hid] at hl'
      obtain ⟨o', ho', e⟩ := lookup_map hl'
      obtain ⟨⟨n', r⟩, hr, e'⟩ := List.mem_map.1 (h.mem_iff.1 (List.mem_map.2 ⟨_, ho', rfl⟩))
      cases e'
      refine ⟨r, hr, ?_⟩
      cases o with
      | error e => exact absurd rfl hs
      | ok s => rfl

theorem served_servable {repos : List (Bytes × Config.Repo)} (h : Servable repos) (errs : Bytes → Option Bytes) :
    Servable (served repos errs) where
  once := (List.filter_sublist.map _).nodup h.once
  names := fun e m => h.names e (List.mem_filter.1 m).1
  links := fun e m => h.links e (List.mem_filter.1 m).1

theorem loaded_servable {c : Config.Config} {L : Config.Loaded} (h : Config.load c = .ok L)
    (hn : (c.repos.map (·.1)).Nodup) (hu : ∀ e ∈ c.repos, ValidUtf8 e.1) : Servable L.repos := by
  obtain ⟨h1, h2⟩ := Config.load_defaults h
  refine ⟨by rw [h1]; exact hn, fun e m => ?_, fun e m => ?_⟩
  · obtain ⟨r, hr, _⟩ := h2 e.1 e.2 m
    exact hu _ hr
  · obtain ⟨r, _, _, _, _, _, ⟨p, hp, _⟩, _⟩ := h2 e.1 e.2 m
    rw [hp]; exact fun c => by cases c

/-- C67, all together: a configuration is loaded, the searchers are made, the page is served. The page then offers
exactly the configured repositories that can be searched, and knows their addresses, display names and templates for
links; its title is that of the configuration. -/
theorem page_lists_searchable_partial {c : Config.Config} {L : Config.Loaded} (h : Config.load c = .ok L)
    (hn : (c.repos.map (·.1)).Nodup) (hu : ∀ e ∈ c.repos, ValidUtf8 e.1) (hp : b!"__proto__" ∉ c.repos.map (·.1))
    {rs : List (Bytes × Except Bytes Nat)} (hr : (rs.map (·.1)).Perm (c.repos.map (·.1))) (host source : Bytes) :
    ∃ known t, startPage (indexPage L.title host source (served L.repos (Up.collect rs).2)) = some known ∧
      KnowsAll (served L.repos (Up.collect rs).2) known ∧
      (∀ n ∈ c.repos.map (·.1), (∃ k p, (k, p) ∈ known ∧ PageHas n k) ↔ (Up.collect rs).1 n ≠ none) ∧
      between b!"<title>" b!"</title" (indexPage L.title host source (served L.repos (Up.collect rs).2)) = some t ∧
      ReadAs t (nulReplaced L.title) := by
  have hs := loaded_servable h hn hu
  obtain ⟨h1, h2⟩ := Config.load_defaults h
  obtain ⟨t, ht, ht'⟩ := title_shown L.title host source (served L.repos (Up.collect rs).2)
  obtain ⟨known, hk, hk'⟩ := page_knows_partial L.title host source (served_servable hs (Up.collect rs).2) (by
    intro m
    obtain ⟨e, he, e'⟩ := List.mem_map.1 m
    refine hp ?_
    rw [← h1]
    exact List.mem_map.2 ⟨e, (List.mem_filter.1 he).1, e'⟩)
  refine ⟨known, t, hk, hk', fun n hm => ?_, ht, ht'⟩
  rw [← served_searchable (by rw [h1]; exact hn) (by rw [h1]; exact hr)]
  obtain ⟨e, he, rfl⟩ := List.mem_map.1 hm
  constructor
  · rintro ⟨k, p, hm, hpk⟩
    obtain ⟨n', r, hr', hpk', _⟩ := hk'.only k p hm
    have e1 := page_has_unique hpk (page_has e.1)
    have e2 := page_has_unique hpk' (page_has n')
    have := forPage_inj (hu e he) (hs.names _ (List.mem_filter.1 hr').1) (e1.symm.trans e2)
    rw [this]
    exact ⟨r, hr'⟩
  · rintro ⟨r, hr'⟩
    obtain ⟨k, p, hm, hpk, _⟩ := hk'.every _ r hr'
    exact ⟨k, p, hm, hpk⟩

/-- The hypotheses of `page_knows_partial` and of `page_lists_searchable_partial` can be met, with one repository that
failed and one that did not. -/
example : Servable [(b!"hound", sampleRepo)] ∧ b!"__proto__" ∉ [(b!"hound", sampleRepo)].map (·.1) :=
  ⟨servable_one (by decide), by decide⟩

example : ∃ L, Config.load { repos := [(b!"a", some sampleRepo), (b!"b", some sampleRepo)] } = .ok L ∧
    ([(b!"b", Except.error b!"no such host"), (b!"a", .ok 7)].map (·.1)).Perm (L.repos.map (·.1)) ∧
    (served L.repos (Up.collect [(b!"b", .error b!"no such host"), (b!"a", .ok 7)]).2).map (·.1) = [b!"a"] :=
  ⟨_, rfl, List.Perm.swap _ _ _, rfl⟩

/-- A title with everything that has to be escaped. -/
example : htmlEscape b!"a<b>&\"'+" = b!"a&lt;b&gt;&amp;&#34;&#39;&#43;" := by decide

/-! ### C68: the names repositories carry on the page -/

theorem findIdx_none {l : Ui.JsStr} (h : 47 ∉ l) : l.findIdx? (· = 47) = none := by
  rw [List.findIdx?_eq_none_iff]
  intro x hx
  exact decide_eq_false fun e => h (e ▸ hx)

theorem findIdx_split {a b : Ui.JsStr} (h : 47 ∉ a) : (a ++ 47 :: b).findIdx? (· = 47) = some a.length := by
  rw [List.findIdx?_append, findIdx_none h]
  simp [List.findIdx?_cons]

theorem lastSlash_none {s : Ui.JsStr} {n : Nat} (h : 47 ∉ s.take (n + 1)) : lastSlash s n = none := by
  rw [lastSlash, findIdx_none (by simpa using h)]

theorem lastSlash_split {s a b : Ui.JsStr} {n : Nat} (e : s.take (n + 1) = a ++ 47 :: b) (h : 47 ∉ b) :
    lastSlash s n = some a.length := by
  have : s.take (n + 1) = a ++ 47 :: b := e
  rw [lastSlash, this, List.reverse_append, List.reverse_cons, List.append_assoc]
  show (match (b.reverse ++ 47 :: a.reverse).findIdx? _ with | none => none | some i => _) = _
  rw [findIdx_split (by simpa using h)]
  simp

/-- Every text with a slash has a last one. -/
theorem last_slash {s : Ui.JsStr} (h : 47 ∈ s) : ∃ a b, s = a ++ 47 :: b ∧ 47 ∉ b := by
  induction s with
  | nil => simp at h
  | cons c t ih =>
    by_cases ht : 47 ∈ t
    · obtain ⟨a, b, e, hb⟩ := ih ht
      exact ⟨c :: a, b, by rw [e]; rfl, hb⟩
    · have : c = 47 := by
        rcases List.mem_cons.1 h with h | h
        · exact h.symm
        · exact absurd h ht
      exact ⟨[], t, by rw [this]; rfl, ht⟩

theorem noGit_drop (s : Ui.JsStr) : NoGit s (Ui.dropSuffix (Ui.js b!".git") s) := by
  rw [Ui.dropSuffix]
  by_cases h : Ui.js b!".git" <:+ s
  · obtain ⟨t, rfl⟩ := h
    rw [if_pos (List.suffix_append _ _)]
    left
    simp
  · rw [if_neg h]
    exact .inr ⟨rfl, h⟩

theorem nameOfUrl_whole {key u : Ui.JsStr} (h : 47 ∉ u) : nameOfUrl key u = key := by
  rw [nameOfUrl, lastSlash_none (fun m => h (List.mem_of_mem_take m))]

theorem nameOfUrl_one {key a b : Ui.JsStr} (ha : 47 ∉ a) (ha' : a ≠ []) (hb : 47 ∉ b) :
    nameOfUrl key (a ++ 47 :: b) = Ui.dropSuffix (Ui.js b!".git") b := by
  have hpos : 0 < a.length := List.length_pos_iff.2 ha'
  have h1 : lastSlash (a ++ 47 :: b) (a ++ 47 :: b).length = some a.length :=
    lastSlash_split (by rw [List.take_of_length_le (Nat.le_succ _)]) hb
  have h2 : lastSlash (a ++ 47 :: b) (a.length - 1) = none := by
    refine lastSlash_none ?_
    rw [Nat.sub_add_cancel hpos, List.take_left]
    exact ha
  rw [nameOfUrl, h1]
  simp only [h2]
  congr 1
  rw [show a ++ 47 :: b = (a ++ [47]) ++ b by simp]
  exact List.drop_left' (by simp)

theorem nameOfUrl_two {key a b c : Ui.JsStr} (hb : 47 ∉ b) (hc : 47 ∉ c) :
    nameOfUrl key (a ++ 47 :: (b ++ 47 :: c)) = b ++ Ui.js b!" / " ++ Ui.dropSuffix (Ui.js b!".git") c := by
  have e : a ++ 47 :: (b ++ 47 :: c) = (a ++ 47 :: b) ++ 47 :: c := by simp
  have h1 : lastSlash (a ++ 47 :: (b ++ 47 :: c)) (a ++ 47 :: (b ++ 47 :: c)).length = some (a ++ 47 :: b).length :=
    lastSlash_split (by rw [List.take_of_length_le (Nat.le_succ _), e]) hc
  have h2 : lastSlash (a ++ 47 :: (b ++ 47 :: c)) ((a ++ 47 :: b).length - 1) = some a.length := by
    refine lastSlash_split (b := b) ?_ hb
    rw [Nat.sub_add_cancel (by simp; omega), e, List.take_left]
  rw [nameOfUrl, h1]
  simp only [h2]
  have hd : (a ++ 47 :: (b ++ 47 :: c)).drop ((a ++ 47 :: b).length + 1) = c := by
    rw [show a ++ 47 :: (b ++ 47 :: c) = (a ++ 47 :: b ++ [47]) ++ c by simp]
    exact List.drop_left' (by simp; omega)
  have hs : substring (a ++ 47 :: (b ++ 47 :: c)) (a.length + 1) (a ++ 47 :: b).length = b := by
    rw [substring, if_pos (by simp), e, List.take_left, show a ++ 47 :: b = (a ++ [47]) ++ b by simp]
    exact List.drop_left' (by simp)
  rw [hd, hs]

/-- C68: an address that is one part behind a slash is shown with a slash too many. -/
theorem nameOfUrl_root {key b : Ui.JsStr} (hb : 47 ∉ b) :
    nameOfUrl key (47 :: b) = Ui.js b!"/ / " ++ Ui.dropSuffix (Ui.js b!".git") b := by
  have h1 : lastSlash (47 :: b) (47 :: b).length = some 0 :=
    lastSlash_split (a := []) (by rw [List.take_of_length_le (Nat.le_succ _)]; rfl) hb
  have h2 : lastSlash (47 :: b) (0 - 1) = some 0 := lastSlash_split (a := []) (b := []) rfl (by simp)
  rw [nameOfUrl, h1]
  simp only [h2]
  rfl

/-- The full claim of C68. -/
def PageNameFull : Prop := ∀ (known : List (Ui.JsStr × PageRepo)) (k : Ui.JsStr) (p : PageRepo), known.lookup k = some p →
  (p.displayName ≠ [] → nameForRepo known k = p.displayName) ∧
  (p.displayName = [] → UrlName k p.url (nameForRepo known k))

/-- C68, for addresses that are not one part behind a slash. -/
theorem page_name_partial {known : List (Ui.JsStr × PageRepo)} {k : Ui.JsStr} {p : PageRepo} (h : known.lookup k = some p)
    (hu : ∀ b, p.url = 47 :: b → 47 ∈ b) :
    (p.displayName ≠ [] → nameForRepo known k = p.displayName) ∧
    (p.displayName = [] → UrlName k p.url (nameForRepo known k)) := by
  simp only [nameForRepo, h]
  refine ⟨fun hd => if_pos hd, fun hd => ?_⟩
  rw [if_neg (fun c => c hd)]
  by_cases hs : 47 ∈ p.url
  · obtain ⟨a, b, e, hb⟩ := last_slash hs
    by_cases ha : 47 ∈ a
    · obtain ⟨x, y, rfl, hy⟩ := last_slash ha
      rw [e, List.append_assoc, List.cons_append, nameOfUrl_two hy hb]
      exact .two hy hb (noGit_drop b)
    · have ha' : a ≠ [] := by
        rintro rfl
        exact hb (hu b e)
      rw [e, nameOfUrl_one ha ha' hb]
      exact .one ha hb (noGit_drop b)
  · rw [nameOfUrl_whole hs]
    exact .whole hs

theorem not_pageNameFull : ¬ PageNameFull := by
  intro h
  obtain ⟨_, h2⟩ := h [(Ui.js b!"src", ⟨Ui.js b!"/src", [], [], []⟩)] (Ui.js b!"src") ⟨Ui.js b!"/src", [], [], []⟩ rfl
  have h2 : UrlName (Ui.js b!"src") (Ui.js b!"/src") (Ui.js b!"/ / src") := h2 rfl
  generalize hu : Ui.js b!"/src" = u at h2
  generalize hv : Ui.js b!"/ / src" = v at h2
  have hm : (47 : UInt16) ∈ v := by rw [← hv]; decide
  have hc : u.count 47 = 1 := by rw [← hu]; decide
  cases h2 with
  | whole h => rw [← hu] at h; exact h (by decide)
  | one ha hb hg =>
    rcases hg with hg | ⟨hg, _⟩
    · exact hb (by rw [hg]; exact List.mem_append_left _ hm)
    · exact hb (hg ▸ hm)
  | two hb hc' hg =>
    simp only [List.count_append, List.count_cons_self] at hc
    omega

/-- C68: names are found for what the page was started with. -/
example : nameForRepo [(Ui.js b!"hound", ⟨Ui.js b!"https://github.com/hound-search/hound.git", [], [], []⟩)] (Ui.js b!"hound") =
    Ui.js b!"hound-search / hound" := by decide +kernel

example : ∀ b, Ui.js b!"https://github.com/hound-search/hound.git" = 47 :: b → 47 ∈ b := by
  intro b h
  have : (104 : UInt16) = 47 := (List.cons.inj h).1
  exact absurd this (by decide)

end Hound.Boot
