import Verif.Props.HoundConf
import Verif.Props.Answer
import Verif.Props.UrlQuery
import Verif.Props.Search

/-!
# C72: the command `hound` prints what the server found
-/

namespace Hound.Cmd
open Spec Config Wire Client JsonText

theorem perm_map_inv {α β : Type} (f : α → β) : ∀ (xs : List α) {l : List β}, l.Perm (xs.map f) →
    ∃ ys : List α, ys.Perm xs ∧ l = ys.map f
  | [], l, h => ⟨[], .refl _, List.perm_nil.1 h⟩
  | x :: xs, l, h => by
    have hm : f x ∈ l := h.mem_iff.2 (by simp)
    obtain ⟨a, b, rfl⟩ := List.append_of_mem hm
    have h' : (a ++ b).Perm (xs.map f) := (List.perm_middle.symm.trans h).cons_inv
    obtain ⟨ys, hp, he⟩ := perm_map_inv f xs h'
    obtain ⟨ya, yb, rfl, rfl, rfl⟩ := List.map_eq_append_iff.1 he.symm
    exact ⟨ya ++ x :: yb, List.perm_middle.trans (hp.cons x), by simp⟩

theorem lineOf_got {m : LineMatch} (h : ∀ x ∈ lineStrings m, ValidUtf8 x) : lineOf (gotLine forClient m) = m := by
  have hl : ∀ l : List Bytes, (∀ x ∈ l, ValidUtf8 x) → l.map forClient = l := fun l hl => by
    conv => rhs; rw [← List.map_id l]
    exact List.map_congr_left fun x hx => forClient_utf8 (hl x hx)
  obtain ⟨line, n, before, after⟩ := m
  simp only [lineStrings, List.mem_cons, List.mem_append] at h
  simp only [lineOf, gotLine, forClient_utf8 (h _ (.inl rfl)), hl before fun x hx => h x (.inr (.inl hx)),
    hl after fun x hx => h x (.inr (.inr hx)), Int.toNat_natCast]

theorem files_got {r : SearchResponse} (h : ∀ x ∈ resultStrings r, ValidUtf8 x) :
    ((gotRepo forClient r).matches_.map fun f => (f.filename, f.matches_.map lineOf)) =
      r.matches_.map fun f => (f.filename, f.matches_) := by
  simp only [gotRepo, List.map_map]
  refine List.map_congr_left fun f hf => ?_
  have hs : ∀ x ∈ fileStrings f, ValidUtf8 x := fun x hx =>
    h x (List.mem_cons_of_mem _ (List.mem_flatMap.2 ⟨f, hf, hx⟩))
  simp only [Function.comp_apply, gotFile, forClient_utf8 (hs _ List.mem_cons_self), List.map_map, Prod.mk.injEq, true_and]
  conv => rhs; rw [← List.map_id f.matches_]
  refine List.map_congr_left fun m hm => ?_
  exact lineOf_got fun x hx => hs x (List.mem_cons_of_mem _ (List.mem_flatMap.2 ⟨m, hm, hx⟩))

/-- The files of a repository with their matches. -/
def filesOf (r : SearchResponse) : List (Bytes × List LineMatch) := r.matches_.map fun f => (f.filename, f.matches_)

/-- A repository found, and how it is to be shown: its name, and its files with blocks of lines. -/
def ShownAs (repos : List (Bytes × Repo)) (r : Bytes × SearchResponse) (g : Bytes × List (Bytes × List Block)) : Prop :=
  shownName repos r.1 = some g.1 ∧ Each Served (filesOf r.2) g.2

/-- The text for repositories that are to be shown. -/
def plainText (ctx : Int) (gs : List (Bytes × List (Bytes × List Block))) : Bytes :=
  (gs.map fun g => g.1 ++ [10] ++ plainFiles ctx g.2).flatten

/-- The command writes this text, with colour codes if it writes to a terminal. -/
def Writes (w : World) (fl : Flags) (args : List Bytes) (text : Bytes) : Prop :=
  ∃ out, command w fl args = .wrote out ∧ Coloured out text ∧ (w.tty = false → out = text)

theorem each_comp {α β γ : Type} {R : α → β → Prop} {f : γ → α} : ∀ {l : List γ} {m : List β}, Each R (l.map f) m →
    Each (fun c b => R (f c) b) l m
  | [], _, .nil => .nil
  | _ :: _, _, .cons h t => .cons h (each_comp t)

theorem each_imp_mem {α β : Type} {R S : α → β → Prop} : ∀ {l : List α} {m : List β}, (∀ a ∈ l, ∀ b, R a b → S a b) →
    Each R l m → Each S l m
  | [], _, _, .nil => .nil
  | _ :: _, _, h, .cons r t => .cons (h _ List.mem_cons_self _ r) (each_imp_mem (fun a ha => h a (List.mem_cons_of_mem _ ha)) t)

/-- C72: what is written for given answers to the two requests. -/
theorem command_prints {w : World} {fl : Flags} {pat : Bytes} {find : Bytes → List (Nat × Nat)} {s : Settings}
    {results : List (Bytes × SearchResponse)} {st : Stats} {repos : List (Bytes × Repo)} (ho : w.orders.Fair)
    (hl : fl.likeGrep = false)
    (hc : w.compile (getRegexpPattern pat fl.ignoreCase) = some find)
    (hf : ∀ line, SpansFrom line.length 0 (find line))
    (hs : loadConfig w.files ⟨[], fl.host⟩ = some s)
    (h1 : w.net (request (w.orders.headers₁ s.headers)
      (Url.clientUrl s.host pat fl.repos fl.files fl.context fl.ignoreCase fl.stats)) =
      some (answer fl.stats (.ok (results, st))))
    (h2 : w.net (request (w.orders.headers₂ s.headers) (reposUrl s.host)) = some (reposAnswer repos))
    (hr : ResultMap results) (hst : st.filesOpened < 2 ^ 63 ∧ st.duration < 2 ^ 63)
    (hu : ∀ e ∈ results, ∀ x ∈ resultStrings e.2, ValidUtf8 x)
    (hfrom : ∀ e ∈ results, ∀ f ∈ e.2.matches_, FromServer f.matches_)
    (hn : (repos.map (·.1)).Nodup)
    (hru : ∀ e ∈ repos, ValidUtf8 e.1 ∧ ValidUtf8 e.2.displayName ∧ ValidUtf8 e.2.url)
    (hname : ∀ e ∈ results, shownName repos e.1 ≠ none) :
    ∃ order gs, order.Perm results ∧ Each (ShownAs repos) order gs ∧ Writes w fl [pat] (plainText fl.context gs) := by
  obtain ⟨sorted, hp, he⟩ := client_answer fl.stats hr hst
  obtain ⟨got, hg, hnames⟩ := client_names hn hru
  obtain ⟨order, hperm, horder⟩ := perm_map_inv _ _
    (ho.results (sorted.map fun e => (e.1, gotRepo forClient e.2)))
  have hpr : order.Perm results := hperm.trans hp
  have hshow : toShow got (w.orders.results (sorted.map fun e => (e.1, gotRepo forClient e.2))) =
      some (order.map fun e => ((shownName repos e.1).getD [], filesOf e.2)) := by
    rw [horder, toShow]
    apply allSome_map
    intro e he
    have hm := hpr.mem_iff.1 he
    simp only [hnames]
    cases hsn : shownName repos e.1 with
    | none => exact absurd hsn (hname e hm)
    | some name =>
      have : repoNameFor (fun n => (repos.lookup n).map fun r => (r.displayName, r.url)) e.1 = some name := hsn
      rw [this]
      simp only [Option.map_some, Option.getD_some, Option.some.injEq, Prod.mk.injEq, true_and]
      exact files_got (hu e hm)
  obtain ⟨gs, hgs, hplain, out, hout, hcol⟩ := present_exact find hf fl.context
    (order.map fun e => ((shownName repos e.1).getD [], filesOf e.2)) (by
      intro r hr f hf'
      obtain ⟨e, he, rfl⟩ := List.mem_map.1 hr
      obtain ⟨x, hx, rfl⟩ := List.mem_map.1 hf'
      exact hfrom e (hpr.mem_iff.1 he) x hx)
  refine ⟨order, gs, hpr, each_imp_mem (fun e he g h => ?_) (each_comp hgs), ?_⟩
  · have hm := hpr.mem_iff.1 he
    refine ⟨?_, h.2⟩
    rw [h.1]
    cases hsn : shownName repos e.1 with
    | none => exact absurd hsn (hname e hm)
    | some name => rfl
  · have hcmd : command w fl [pat] =
        match present w.tty find fl.context (order.map fun e => ((shownName repos e.1).getD [], filesOf e.2)) with
        | some out => .wrote out
        | none => .panic := by
      simp only [command, hc, hs]
      rw [h1, h2]
      simp only [searchAndLoad, he, hg, hl, hshow, Option.bind_some, Bool.false_eq_true, if_false]
      rfl
    cases htty : w.tty with
    | false =>
      rw [htty, hplain] at hcmd
      exact ⟨_, hcmd, coloured_refl _, fun _ => rfl⟩
    | true =>
      rw [htty, hout] at hcmd
      exact ⟨_, hcmd, hcol, fun h => by rw [htty] at h; cases h⟩

/-! ## From the flags to the output -/

theorem search_fromServer {Q : Type} {compile : Bytes → Option (Compiled Q)} {quoteMeta : Bytes → Bytes}
    {ix : IndexView Q} {pat : Bytes} {opt : SearchOptions} {r : SearchResponse}
    (hcomp : ∀ c, compile (fullPattern quoteMeta pat opt) = some c → ∃ acc, IsLineMatcher c.mt acc)
    (h : search compile quoteMeta ix pat opt = .ok r) : ∀ f ∈ r.matches_, FromServer f.matches_ := by
  obtain ⟨re, fre, ex, st, hre, _, _, hst, rfl⟩ := search_unfold h
  intro f hf
  obtain ⟨acc, hacc⟩ := hcomp _ hre
  rcases searchLoop_sound _ _ _ _ _ _ _ _ hst f hf with h0 | ⟨_, _, _, _, _, _, buf, _, hp⟩
  · simp at h0
  · exact ⟨re.mt, acc, _, buf, hacc, hp⟩

theorem clientUrl_query (host pattern repos files : Bytes) (context : Int) (ignoreCase stats : Bool) :
    ∃ q, Url.clientUrl host pattern repos files context ignoreCase stats =
        b!"http://" ++ host ++ b!"/api/v1/search?" ++ q ∧ (35 : UInt8) ∉ q ∧
      Url.formValue q = Url.clientForm [] pattern repos files context ignoreCase stats := by
  refine ⟨_, rfl, Url.encode_safe _, ?_⟩
  rw [Url.clientForm, Url.rawQuery_client (by simp) (by simp)]

/-- What is assumed of the server and of its configuration. The pattern compiler makes line matchers (C13, C17); the
repositories have names and addresses that are text, and no address whose only slash is its first character; the
strings and numbers of what is found for this search are text and `int`s. -/
structure Plain {Q : Type} (srv : Ui.Server Q) (repos : List (Bytes × Repo)) (pat : Bytes) (opt : SearchOptions) :
    Prop where
  matchers : ∀ c, srv.compile (fullPattern srv.quoteMeta pat opt) = some c → ∃ acc, IsLineMatcher c.mt acc
  once : (repos.map (·.1)).Nodup
  text : ∀ e ∈ repos, ValidUtf8 e.1 ∧ ValidUtf8 e.2.displayName ∧ ValidUtf8 e.2.url
  urls : ∀ e ∈ repos, ∀ rest, e.2.url = 47 :: rest → (47 : UInt8) ∈ rest
  names : ∀ e ∈ srv.idx, ValidUtf8 e.1
  found : ∀ n ix r, srv.idx.lookup n = some ix → search srv.compile srv.quoteMeta ix pat opt = .ok r →
    Fits r ∧ ∀ x ∈ resultStrings r, ValidUtf8 x

/-- The outcomes of a search of the listed repositories of the server for the pattern. -/
def Searches {Q : Type} (srv : Ui.Server Q) (pat repos : Bytes) (opt : SearchOptions)
    (out : Except SearchErr Api.AllFound) : Prop :=
  Api.SearchAllRun (fun n a => ∃ ix, srv.idx.lookup n = some ix ∧ a = search srv.compile srv.quoteMeta ix pat opt)
    (Api.parseAsRepoList repos srv.idx) out

theorem lastIndexByte_ne {c : UInt8} : ∀ {l : Bytes}, c ∈ l → lastIndexByte l c ≠ none
  | b :: bs, h => by
    simp only [lastIndexByte]
    rcases List.mem_cons.1 h with rfl | h
    · cases lastIndexByte bs c <;> simp
    · cases hl : lastIndexByte bs c with
      | none => exact absurd hl (lastIndexByte_ne h)
      | some i => simp

theorem repoNameFromUrl_ne {url : Bytes} (hu : ∀ rest, url = 47 :: rest → (47 : UInt8) ∈ rest) :
    repoNameFromUrl url ≠ none := by
  intro h
  cases url with
  | nil => simp [repoNameFromUrl, lastIndexByte] at h
  | cons b bs =>
    simp only [repoNameFromUrl] at h
    cases hb : lastIndexByte bs 47 with
    | none =>
      by_cases hc : b = 47
      · exact lastIndexByte_ne (hu bs (by rw [hc])) hb
      · simp [lastIndexByte, hb, hc] at h
    | some i =>
      simp only [lastIndexByte, hb] at h
      rw [if_neg (by omega)] at h
      split at h <;> cases h

theorem shownName_some {repos : List (Bytes × Repo)} (hu : ∀ e ∈ repos, ∀ rest, e.2.url = 47 :: rest → (47 : UInt8) ∈ rest)
    (n : Bytes) : shownName repos n ≠ none := by
  have hid : (repos.map fun e => (e.1, id e.2)) = repos := by simp
  simp only [shownName, repoNameFor]
  cases hl : (repos.lookup n).map fun r => (r.displayName, r.url) with
  | none => simp
  | some p =>
    obtain ⟨r, hr, rfl⟩ := Option.map_eq_some_iff.1 hl
    rw [← hid] at hr
    obtain ⟨r', hr', e⟩ := lookup_map hr
    simp only
    split
    · simp
    · cases hx : repoNameFromUrl r.url with
      | none => exact absurd hx (repoNameFromUrl_ne fun rest h => hu _ hr' rest (by rw [← h, e]; rfl))
      | some name =>
        simp only
        split <;> simp

/-- C72, the whole way: from the pattern and the flags on the command line to the bytes written. The server (of the
address in the settings) searches the repositories that were named for that pattern with those options, and the command
writes exactly what was found: every repository under its name, every file, and blocks of numbered lines, with colour
codes on a terminal. Where the search fails on the server, nothing is written. -/
theorem command_finds {Q : Type} {srv : Ui.Server Q} {repos : List (Bytes × Repo)} {w : World} {fl : Flags} {pat : Bytes}
    {find : Bytes → List (Nat × Nat)} {s : Settings} (ho : w.orders.Fair) (hl : fl.likeGrep = false)
    (hc : w.compile (getRegexpPattern pat fl.ignoreCase) = some find)
    (hf : ∀ line, SpansFrom line.length 0 (find line))
    (hs : loadConfig w.files ⟨[], fl.host⟩ = some s)
    (hsrv : AnswersAt srv repos s.host w.net)
    (hp : Plain srv repos pat (optionsOf fl srv.resultLimit)) :
    (∃ e, Searches srv pat fl.repos (optionsOf fl srv.resultLimit) (.error e) ∧ Writes w fl [pat] []) ∨
    ∃ all results gs, Searches srv pat fl.repos (optionsOf fl srv.resultLimit) (.ok all) ∧
      Lists results all.results ∧ Each (ShownAs repos) results gs ∧ Writes w fl [pat] (plainText fl.context gs) := by
  obtain ⟨q, hq, hq1, hq2⟩ := clientUrl_query s.host pat fl.repos fl.files fl.context fl.ignoreCase fl.stats
  obtain ⟨e1, e2, e3, e4⟩ := Url.client_request (host := []) (by simp) (by simp) pat fl.repos fl.files fl.context
    fl.ignoreCase fl.stats srv.resultLimit
  have hserved : ∀ out, Ui.Served srv (Url.formValue q) out →
      Searches srv pat fl.repos (optionsOf fl srv.resultLimit) out := by
    intro out h
    rw [hq2] at h
    unfold Ui.Served at h
    rw [e1, e2, e4] at h
    exact h
  have hstats : Api.parseAsBool (Url.formValue q b!"stats") = fl.stats := by rw [hq2, e3]
  have hurl := (request_exact (ho.headers₁ s.headers)
    (Url.clientUrl s.host pat fl.repos fl.files fl.context fl.ignoreCase fl.stats)).1
  have h2 := hsrv.repos _ ((request_exact (ho.headers₂ s.headers) (reposUrl s.host)).1)
  rcases hsrv.search _ q (hurl.trans hq) hq1 with ⟨e, msg, hout, hnet⟩ | ⟨all, results, st, hout, hlist, hst, hst1, hst2, hnet⟩
  · refine .inl ⟨e, hserved _ hout, [], ?_, .nil, fun _ => rfl⟩
    obtain ⟨got, hg, -⟩ := client_names hp.once hp.text
    have he : w.orders.results [] = [] := List.perm_nil.1 (ho.results [])
    simp only [command, hc, hs]
    rw [hnet, h2]
    simp only [searchAndLoad, client_silent, hg, hl, he, toShow, allSome, Option.bind_some, present, Bool.false_eq_true,
      if_false]
  · rw [hstats] at hnet
    have hrun := hserved _ hout
    obtain ⟨ha, -⟩ := Api.searchAll_ok hrun
    have hfound : ∀ x ∈ results, x.1 ∈ Api.parseAsRepoList fl.repos srv.idx ∧ (∃ ix, srv.idx.lookup x.1 = some ix ∧
        search srv.compile srv.quoteMeta ix pat (optionsOf fl srv.resultLimit) = .ok x.2) ∧ x.2.matches_ ≠ [] := by
      intro x hx
      obtain ⟨b1, ⟨ix, b2, b3⟩, b4⟩ := ha x.1 x.2 ((hlist.2 x.1 x.2).1 hx)
      exact ⟨b1, ⟨ix, b2, b3.symm⟩, b4⟩
    have hmap : ResultMap results := by
      refine ⟨hlist.1, fun x hx => ?_, fun x hx => (hfound x hx).2.2, fun x hx => ?_⟩
      · obtain ⟨ix, hix, -⟩ := (hfound x hx).2.1
        have hid : (srv.idx.map fun e => (e.1, id e.2)) = srv.idx := by simp
        rw [← hid] at hix
        obtain ⟨r, hr, -⟩ := lookup_map hix
        exact hp.names _ hr
      · obtain ⟨ix, hix, hr⟩ := (hfound x hx).2.1
        exact (hp.found _ _ _ hix hr).1
    obtain ⟨order, gs, hperm, hgs, hw⟩ := command_prints ho hl hc hf hs hnet h2 hmap ⟨hst1, hst2⟩
      (fun x hx => by
        obtain ⟨ix, hix, hr⟩ := (hfound x hx).2.1
        exact (hp.found _ _ _ hix hr).2)
      (fun x hx => by
        obtain ⟨ix, -, hr⟩ := (hfound x hx).2.1
        exact search_fromServer hp.matchers hr)
      hp.once hp.text (fun x _ => shownName_some hp.urls x.1)
    refine .inr ⟨all, order, gs, hrun, ⟨(hperm.map _).nodup_iff.2 hlist.1, fun n r => ?_⟩, hgs, hw⟩
    rw [hperm.mem_iff]
    exact hlist.2 n r

/-! ## What is not as it should be -/

/-- C72: the command writes what it received, whatever the flags. -/
def PresentsFull : Prop := ∀ (w : World) (fl : Flags) (pat : Bytes) (res : Response) (repos : List (Bytes × (Bytes × Bytes)))
  (s : Settings), loadConfig w.files ⟨[], fl.host⟩ = some s →
  searchAndLoad (w.net (request (w.orders.headers₁ s.headers)
      (Url.clientUrl s.host pat fl.repos fl.files fl.context fl.ignoreCase fl.stats)))
    (w.net (request (w.orders.headers₂ s.headers) (reposUrl s.host))) = .ok (res, repos) →
  ∀ out, command w fl [pat] = .wrote out → ∀ e ∈ res.results, ∀ f ∈ e.2.matches_, f.filename <:+: out

/-- C72: with `--like-grep` it writes the same line of text whatever was found. -/
theorem likeGrep_writes {w : World} {fl : Flags} {pat out : Bytes} (hl : fl.likeGrep = true)
    (h : command w fl [pat] = .wrote out) :
    out = grepPresent w.tty ∧ Coloured out (b!"// TODO(knorton): Implement" ++ [10]) := by
  have e : out = grepPresent w.tty := by
    simp only [command] at h
    split at h
    · split at h
      · cases h
      · rw [if_pos hl] at h
        exact (Ending.wrote.inj h).symm
    · cases h
  refine ⟨e, ?_⟩
  rw [e]
  exact coloured_append (coloured_fgBg _ _ _ _ _ _) (coloured_refl _)

/-- A world in which one file is found, and the output goes to a file. -/
def oneFile : World where
  compile := fun _ => some fun _ => []
  files := some []
  net := fun req =>
    if req.url = b!"http://h/api/v1/repos" then some (200, b!"{}")
    else some (200, b!"{\"Results\":{\"r\":{\"Matches\":[{\"Filename\":\"a.go\",\"Matches\":[]}]}}}")
  tty := false
  orders := ⟨id, id, id⟩

/-- C72: with `--like-grep` nothing that was found is written. -/
theorem not_presentsFull : ¬ PresentsFull := by
  intro h
  have := h oneFile ⟨b!"h", b!"*", [], 2, false, false, true⟩ b!"x"
    ⟨[(b!"r", ⟨[⟨b!"a.go", [], false⟩], 0, []⟩)], none⟩ [] ⟨[], b!"h"⟩ rfl rfl (grepPresent false) rfl
    _ List.mem_cons_self _ List.mem_cons_self
  have hm : (46 : UInt8) ∈ grepPresent false := this.subset (by decide)
  exact absurd hm (by decide)

/-- C72: the statistics that `--show-stats` asks for are never shown: the output is the same whatever they are. -/
theorem stats_not_shown {w w' : World} {fl : Flags} {pat : Bytes} {res res' : Response}
    {repos : List (Bytes × (Bytes × Bytes))} {s : Settings}
    (he : w' = { w with net := w'.net })
    (hs : loadConfig w.files ⟨[], fl.host⟩ = some s)
    (h : searchAndLoad (w.net (request (w.orders.headers₁ s.headers)
        (Url.clientUrl s.host pat fl.repos fl.files fl.context fl.ignoreCase fl.stats)))
      (w.net (request (w.orders.headers₂ s.headers) (reposUrl s.host))) = .ok (res, repos))
    (h' : searchAndLoad (w'.net (request (w.orders.headers₁ s.headers)
        (Url.clientUrl s.host pat fl.repos fl.files fl.context fl.ignoreCase fl.stats)))
      (w'.net (request (w.orders.headers₂ s.headers) (reposUrl s.host))) = .ok (res', repos))
    (hr : res'.results = res.results) : command w' fl [pat] = command w fl [pat] := by
  rw [he]
  simp only [command, hs]
  cases w.compile (getRegexpPattern pat fl.ignoreCase) with
  | none => rfl
  | some find => simp only [h, h', hr]

/-- C72: the use is explained exactly if there is not one pattern. -/
theorem command_usage (w : World) (fl : Flags) (args : List Bytes) : command w fl args = .usage ↔ args.length ≠ 1 := by
  match args with
  | [] => simp [command]
  | [pat] =>
    simp only [command, List.length_singleton, ne_eq, not_true_eq_false, iff_false]
    intro h
    split at h
    · split at h
      · cases h
      · split at h
        · cases h
        · split at h <;> cases h
    · cases h
  | _ :: _ :: _ => simp [command]

/-! ## A server -/

theorem lists_exists {α : Type} (m : Bytes → Option α) : ∀ dom : List Bytes,
    ∃ results : List (Bytes × α), (results.map (·.1)).Nodup ∧ ∀ n r, (n, r) ∈ results ↔ n ∈ dom ∧ m n = some r
  | [] => ⟨[], .nil, by simp⟩
  | a :: dom => by
    obtain ⟨results, h1, h2⟩ := lists_exists m dom
    by_cases ha : a ∈ dom
    · refine ⟨results, h1, fun n r => ?_⟩
      rw [h2, List.mem_cons]
      exact ⟨fun h => ⟨.inr h.1, h.2⟩, fun h => ⟨h.1.elim (fun e => e ▸ ha) id, h.2⟩⟩
    · cases hm : m a with
      | none =>
        refine ⟨results, h1, fun n r => ?_⟩
        rw [h2, List.mem_cons]
        refine ⟨fun h => ⟨.inr h.1, h.2⟩, fun h => ⟨h.1.elim (fun e => ?_) id, h.2⟩⟩
        rw [e, hm] at h
        cases h.2
      | some v =>
        refine ⟨(a, v) :: results, ?_, fun n r => ?_⟩
        · rw [List.map_cons, List.nodup_cons]
          refine ⟨fun h => ?_, h1⟩
          obtain ⟨e, he, rfl⟩ := List.mem_map.1 h
          exact ha ((h2 e.1 e.2).1 he).1
        · rw [List.mem_cons, List.mem_cons, h2, Prod.mk.injEq]
          constructor
          · rintro (⟨rfl, rfl⟩ | ⟨h3, h4⟩)
            · exact ⟨.inl rfl, hm⟩
            · exact ⟨.inr h3, h4⟩
          · rintro ⟨rfl | h3, h4⟩
            · rw [hm] at h4; exact .inl ⟨rfl, (Option.some.inj h4).symm⟩
            · exact .inr ⟨h3, h4⟩

theorem repoList_known {α : Type} {v n : Bytes} {idx : List (Bytes × α)} (h : n ∈ Api.parseAsRepoList v idx) :
    ∃ ix, idx.lookup n = some ix := by
  simp only [Api.parseAsRepoList] at h
  split at h
  · cases hl : idx.lookup n with
    | some ix => exact ⟨ix, rfl⟩
    | none =>
      obtain ⟨e, he, rfl⟩ := List.mem_map.1 h
      exact absurd (List.lookup_eq_none_iff.1 hl e he) (by simp)
  · exact Option.isSome_iff_exists.1 (List.mem_filter.1 h).2

theorem served_exists {Q : Type} (srv : Ui.Server Q) (form : Bytes → Bytes) : ∃ out, Ui.Served srv form out := by
  refine ⟨_, (Api.parseAsRepoList (form b!"repos") srv.idx).map fun n => (n, match srv.idx.lookup n with
    | some ix => search srv.compile srv.quoteMeta ix (form b!"q") (Api.searchOptions form srv.resultLimit)
    | none => .error .io), _, ?_, ?_, .refl _, rfl⟩
  · rw [List.map_map]
    exact (List.map_congr_left fun _ _ => rfl).trans (List.map_id _)
  · intro a ha
    obtain ⟨n, hn, rfl⟩ := List.mem_map.1 ha
    obtain ⟨ix, hix⟩ := repoList_known hn
    exact ⟨ix, hix, by simp only [hix]⟩

/-- Every server can be asked at any address. -/
theorem serves_exists {Q : Type} (srv : Ui.Server Q) (repos : List (Bytes × Repo)) (host : Bytes) :
    ∃ net, AnswersAt srv repos host net := by
  have hone : ∀ req : Request, ∃ r : Option (Nat × Bytes),
      (∀ q, req.url = b!"http://" ++ host ++ b!"/api/v1/search?" ++ q →
        (∃ e msg, Ui.Served srv (Url.formValue q) (.error e) ∧
          r = some (answer (Api.parseAsBool (Url.formValue q b!"stats")) (.error msg))) ∨
        ∃ all results st, Ui.Served srv (Url.formValue q) (.ok all) ∧ Lists results all.results ∧
          (all.filesOpened < 2 ^ 63 → st.filesOpened = all.filesOpened) ∧ st.filesOpened < 2 ^ 63 ∧ st.duration < 2 ^ 63 ∧
          r = some (answer (Api.parseAsBool (Url.formValue q b!"stats")) (.ok (results, st)))) ∧
      (req.url = b!"http://" ++ host ++ b!"/api/v1/repos" → r = some (reposAnswer repos)) := by
    intro req
    by_cases hr : req.url = b!"http://" ++ host ++ b!"/api/v1/repos"
    · refine ⟨some (reposAnswer repos), fun q hq => ?_, fun _ => rfl⟩
      rw [hr, List.append_assoc, List.append_assoc, List.append_assoc] at hq
      have h := List.append_cancel_left (List.append_cancel_left hq)
      have h9 := congrArg (fun l => l[8]?) h
      rw [List.getElem?_append_left (by decide)] at h9
      exact absurd h9 (by decide)
    · by_cases hs : ∃ q, req.url = b!"http://" ++ host ++ b!"/api/v1/search?" ++ q
      · obtain ⟨q, hq⟩ := hs
        have huniq : ∀ q', req.url = b!"http://" ++ host ++ b!"/api/v1/search?" ++ q' → q' = q := fun q' hq' =>
          (List.append_cancel_left (hq.symm.trans hq')).symm
        obtain ⟨out, hout⟩ := served_exists srv (Url.formValue q)
        cases out with
        | error e =>
          refine ⟨some (answer (Api.parseAsBool (Url.formValue q b!"stats")) (.error [])), fun q' hq' => ?_,
            fun h => absurd h hr⟩
          rw [huniq q' hq']
          exact .inl ⟨e, [], hout, rfl⟩
        | ok all =>
          obtain ⟨results, h1, h2⟩ := lists_exists all.results (Api.parseAsRepoList (Url.formValue q b!"repos") srv.idx)
          refine ⟨some (answer (Api.parseAsBool (Url.formValue q b!"stats")) (.ok (results, ⟨all.filesOpened % 2 ^ 63, 0⟩))),
            fun q' hq' => ?_, fun h => absurd h hr⟩
          rw [huniq q' hq']
          refine .inr ⟨all, results, ⟨all.filesOpened % 2 ^ 63, 0⟩, hout, ⟨h1, fun n r => ?_⟩, Nat.mod_eq_of_lt,
            Nat.mod_lt _ (Nat.two_pow_pos 63), Nat.two_pow_pos 63, rfl⟩
          rw [h2]
          exact ⟨fun h => h.2, fun h => ⟨((Api.searchAll_ok hout).1 n r h).1, h⟩⟩
      · exact ⟨none, fun q hq => absurd ⟨q, hq⟩ hs, fun h => absurd h hr⟩
  refine ⟨fun req => Classical.choose (hone req), fun req q hq _ => ?_, fun req hq => ?_⟩
  · exact (Classical.choose_spec (hone req)).1 q hq
  · exact (Classical.choose_spec (hone req)).2 hq

/-- A server with one repository of three files. -/
def exServer : Ui.Server Unit := ⟨exCompile, id, [(b!"r", exIndex)], 0⟩

/-- Its configuration. -/
def exRepos : List (Bytes × Repo) := [(b!"r", { url := b!"https://git.example/x/r.git" })]

/-- The flags without context. -/
def exFlags : Flags := ⟨b!"h", b!"*", [], 0, false, false, false⟩

theorem ex_search {n : Bytes} {ix : IndexView Unit} (h : exServer.idx.lookup n = some ix) :
    n = b!"r" ∧ ix = exIndex := by
  simp only [exServer, List.lookup_cons] at h
  split at h
  · rename_i hb; exact ⟨eq_of_beq hb, (Option.some.inj h).symm⟩
  · cases h

theorem ex_found : search exCompile id exIndex b!"x" (optionsOf exFlags 0) = .ok exFull := rfl

theorem ex_plain : Plain exServer exRepos b!"x" (optionsOf exFlags 0) where
  matchers := by
    intro c h
    simp only [exServer, exCompile] at h
    split at h
    · cases h
    · cases h; exact ⟨_, exMt_isLineMatcher _⟩
  once := by decide
  text := by
    intro e he
    rw [List.mem_singleton.1 he]
    exact ⟨utf8_ascii (by decide), utf8_ascii (by decide), utf8_ascii (by decide)⟩
  urls := by
    intro e he rest h
    rw [List.mem_singleton.1 he] at h
    cases h
  names := by
    intro e he
    rw [List.mem_singleton.1 he]
    exact utf8_ascii (by decide)
  found := by
    intro n ix r h hr
    obtain ⟨-, rfl⟩ := ex_search h
    have : Except.ok exFull = Except.ok (ε := SearchErr) r := ex_found.symm.trans hr
    obtain rfl := Except.ok.inj this
    refine ⟨⟨by decide, by decide⟩, fun x hx => utf8_ascii ?_⟩
    revert x
    decide

/-- The command asks this server and writes what is in the two files. -/
theorem ex_command : ∃ w gs, AnswersAt exServer exRepos b!"h" w.net ∧ w.tty = false ∧
    Each (ShownAs exRepos) [(b!"r", exFull)] gs ∧ command w exFlags [b!"x"] = .wrote (plainText 0 gs) := by
  obtain ⟨net, hnet⟩ := serves_exists exServer exRepos b!"h"
  let w : World := ⟨fun _ => some fun _ => [], some [.missing, .missing], net, false, ⟨id, id, id⟩⟩
  have hf : ∀ line : Bytes, SpansFrom line.length 0 [] := fun line => Nat.zero_le _
  rcases command_finds (w := w) (fl := exFlags) (s := ⟨[], b!"h"⟩) ⟨fun _ => .refl _, fun _ => .refl _, fun _ => .refl _⟩
    rfl rfl hf rfl hnet ex_plain with ⟨e, hs, -⟩ | ⟨all, results, gs, hs, hl, hg, out, ho, -, hw⟩
  · obtain ⟨n, -, ix, hix, he⟩ := Api.searchAll_error hs
    obtain ⟨-, rfl⟩ := ex_search hix
    have := he.trans ex_found
    cases this
  · obtain ⟨h1, h2⟩ := Api.searchAll_ok hs
    have hsome : ∀ n r, all.results n = some r → n = b!"r" ∧ r = exFull := by
      intro n r h
      obtain ⟨-, ⟨ix, hix, he⟩, -⟩ := h1 n r h
      obtain ⟨rfl, rfl⟩ := ex_search hix
      exact ⟨rfl, Except.ok.inj (he.trans ex_found)⟩
    have hr : all.results b!"r" = some exFull := by
      cases h : all.results b!"r" with
      | some r => rw [(hsome _ _ h).2]
      | none =>
        rcases h2 _ h with h | ⟨r, ⟨ix, hix, he⟩, hm⟩
        · exact absurd (by decide +kernel) h
        · obtain ⟨-, rfl⟩ := ex_search hix
          rw [Except.ok.inj (he.trans ex_found)] at hm
          cases hm
    have hall : ∀ e ∈ results, e = (b!"r", exFull) := fun e he => by
      obtain ⟨h3, h4⟩ := hsome e.1 e.2 ((hl.2 _ _).1 he)
      rw [← h3, ← h4]
    have hres : results = [(b!"r", exFull)] := by
      have hm := (hl.2 _ _).2 hr
      cases results with
      | nil => cases hm
      | cons a t =>
        cases t with
        | nil => rw [hall a List.mem_cons_self]
        | cons b t =>
          have hn := (List.nodup_cons.1 hl.1).1
          rw [hall a List.mem_cons_self, hall b (by simp)] at hn
          exact absurd List.mem_cons_self hn
    rw [hres] at hg
    exact ⟨w, gs, hnet, rfl, hg, by rw [ho, hw rfl]; rfl⟩

end Hound.Cmd
