import Verif.Props.CmdLine
import Verif.Spec.Typed
/-!
C107: what is typed is what is asked of the server.
-/

namespace Hound
namespace Flag
open Spec Cmd Wire

private theorem serverOf_exact {files : List ConfFile} {s t : Settings} (h : loadConfig (some files) s = some t) :
    ServerOf files s.host t.host := by
  have e := host_exact h
  by_cases hn : hostsGiven files = []
  · rw [hn] at e; exact .inl ⟨hn, e⟩
  · refine .inr ⟨(hostsGiven files).dropLast, ?_⟩
    rw [List.getLast?_eq_some_getLast hn] at e
    simp only [Option.getD_some] at e
    rw [e, List.dropLast_concat_getLast hn]

private theorem no_search (r : Option (Nat × Bytes)) : ∃ e, searchAndLoad none r = .error e := ⟨_, rfl⟩

private theorem no_repos (r : Option (Nat × Bytes)) : ∃ e, searchAndLoad r none = .error e := by
  unfold searchAndLoad
  cases clientSearch r with
  | error e => exact ⟨e, rfl⟩
  | ok x => exact ⟨_, rfl⟩

/-- **C107.** A command line with one argument behind its flags makes two requests to the server that the configuration files name, or
else the flag: one asks for the search that was typed, byte for byte, the other for the list of repositories. What the command writes
depends on the answers to these two alone, and without one of them it fails. If a configuration file cannot be used or the pattern cannot
be compiled, it fails whatever the server answers. -/
theorem typed_is_asked (dh : Bytes) (w : World) (ho : w.orders.Fair) {args : List Bytes} {sets : List (Bytes × Val)} {pat : Bytes}
    (h : Line houndKnows args sets [pat]) :
    ∃ flag repos only context ignoreCase stats, Typed dh sets flag repos only context ignoreCase stats ∧
      (((∃ files, w.files = some files ∧ ∀ f ∈ files, GoodFile f) ∧
          w.compile ((if ignoreCase then b!"(?i)(?m)" else b!"(?m)") ++ pat) ≠ none →
        ∃ files host req₁ req₂, w.files = some files ∧ ServerOf files flag host ∧
          AsksFor req₁ host pat repos only context ignoreCase stats ∧ req₂.url = b!"http://" ++ host ++ b!"/api/v1/repos" ∧
          (∀ net net', net req₁ = net' req₁ → net req₂ = net' req₂ →
            houndMain dh { w with net := net } args = houndMain dh { w with net := net' } args) ∧
          ∀ net, net req₁ = none ∨ net req₂ = none → houndMain dh { w with net := net } args = .ran .panic) ∧
       (¬ ((∃ files, w.files = some files ∧ ∀ f ∈ files, GoodFile f) ∧
          w.compile ((if ignoreCase then b!"(?i)(?m)" else b!"(?m)") ++ pat) ≠ none) →
        ∀ net, houndMain dh { w with net := net } args = .ran .panic)) := by
  have g := good_hound
  have hfl : Typed dh sets (houndSettings dh sets).host (houndSettings dh sets).repos (houndSettings dh sets).files
      (houndSettings dh sets).context (houndSettings dh sets).ignoreCase (houndSettings dh sets).stats := by
    refine ⟨?_, has_str g h (by decide) _, has_str g h (by decide) _, has_int g h (by decide) _, has_bool g h (by decide) _,
      has_bool g h (by decide) _⟩
    have := has_str g h (name := b!"host") (by decide) (if dh = [] then b!"localhost:6080" else dh)
    have e : defaultFlagForHost dh = if dh = [] then b!"localhost:6080" else dh := by
      unfold defaultFlagForHost
      by_cases hd : dh = [] <;> simp [hd]
    simpa only [houndSettings, e] using this
  have hm : ∀ net, houndMain dh { w with net := net } args = .ran (Cmd.command { w with net := net } (houndSettings dh sets) [pat]) := by
    intro net
    unfold houndMain
    rw [(parse_exact g args sets [pat]).2 h]
  generalize houndSettings dh sets = fl at hfl hm
  refine ⟨_, _, _, _, _, _, hfl, ?_, ?_⟩
  · rintro ⟨⟨files, hfs, hgood⟩, hcomp⟩
    have hcomp : w.compile (getRegexpPattern pat fl.ignoreCase) ≠ none := by
      unfold getRegexpPattern
      cases hi : fl.ignoreCase <;> simpa [hi] using hcomp
    obtain ⟨find, hc⟩ := Option.ne_none_iff_exists'.1 hcomp
    have hconf : loadConfig w.files ⟨[], fl.host⟩ ≠ none := by
      intro hn
      rcases (conf_fails_iff _ _).1 hn with h | ⟨fs, h, f, hf, hb⟩
      · rw [hfs] at h; cases h
      · rw [hfs] at h; cases h; exact hb (hgood f hf)
    obtain ⟨s, hs⟩ := Option.ne_none_iff_exists'.1 hconf
    obtain ⟨q, hq, hq1, hq2⟩ := clientUrl_query s.host pat fl.repos fl.files fl.context fl.ignoreCase fl.stats
    refine ⟨files, s.host, request (w.orders.headers₁ s.headers) (Url.clientUrl s.host pat fl.repos fl.files fl.context fl.ignoreCase fl.stats),
      request (w.orders.headers₂ s.headers) (reposUrl s.host), hfs, serverOf_exact (s := ⟨[], fl.host⟩) (by rw [← hfs]; exact hs), ?_, ?_, ?_, ?_⟩
    · have hr := fun dflt => Url.client_request (host := []) (by simp) (by simp) pat fl.repos fl.files fl.context fl.ignoreCase fl.stats dflt
      refine ⟨q, (request_exact (ho.headers₁ s.headers) _).1.trans hq, hq1, ?_, ?_, ?_, fun dflt => ?_⟩
      · rw [hq2]; exact (hr 0).1
      · rw [hq2]; exact (hr 0).2.1
      · rw [hq2]; exact (hr 0).2.2.1
      · rw [hq2]; exact (hr dflt).2.2.2
    · exact (request_exact (ho.headers₂ s.headers) _).1
    · intro net net' h1 h2
      rw [hm, hm]
      simp only [command, hc, hs, h1, h2]
    · intro net hn
      rw [hm]
      simp only [command, hc, hs]
      rcases hn with hn | hn
      · rw [hn]
        obtain ⟨e, he⟩ := no_search (net (request (w.orders.headers₂ s.headers) (reposUrl s.host)))
        rw [he]
      · rw [hn]
        obtain ⟨e, he⟩ := no_repos (net (request (w.orders.headers₁ s.headers)
          (Url.clientUrl s.host pat fl.repos fl.files fl.context fl.ignoreCase fl.stats)))
        rw [he]
  · intro hbad net
    rw [hm]
    simp only [command]
    cases hc : w.compile (getRegexpPattern pat fl.ignoreCase) with
    | none => rfl
    | some find =>
      cases hs : loadConfig w.files ⟨[], fl.host⟩ with
      | none => rfl
      | some s =>
        exfalso
        refine hbad ⟨?_, ?_⟩
        · have : ¬ (w.files = none ∨ ∃ fs, w.files = some fs ∧ ∃ f ∈ fs, ¬ GoodFile f) := fun h => by
            rw [(conf_fails_iff _ _).2 h] at hs; cases hs
          cases hw : w.files with
          | none => exact absurd (.inl hw) this
          | some fs =>
            exact ⟨fs, rfl, fun f hf => Classical.byContradiction fun hb => this (.inr ⟨fs, hw, f, hf, hb⟩)⟩
        · unfold getRegexpPattern at hc
          cases hi : fl.ignoreCase <;> simp [hi] at hc ⊢ <;> simp [hc]

/-- **C107.** The command line says one thing only of each flag. -/
theorem has_unique {sets : List (Bytes × Val)} {name : Bytes} {dflt x y : Val} (h : Has sets name dflt x) (h' : Has sets name dflt y) :
    x = y := by
  rcases h with ⟨h, hn⟩ | ⟨a, b, h, hn⟩ <;> rcases h' with ⟨h', hn'⟩ | ⟨a', b', h', hn'⟩
  · rw [h, h']
  · exact absurd (by rw [h']; simp) (hn y)
  · exact absurd (by rw [h]; simp) (hn' x)
  · rw [h] at h'
    rcases List.append_eq_append_iff.1 h' with ⟨c, -, hb⟩ | ⟨c, -, hb⟩
    · cases c with
      | nil => cases hb; rfl
      | cons e c =>
        simp only [List.cons_append, List.cons.injEq] at hb
        exact absurd (by rw [hb.2]; simp) (hn y)
    · cases c with
      | nil => cases hb; rfl
      | cons e c =>
        simp only [List.cons_append, List.cons.injEq] at hb
        exact absurd (by rw [hb.2]; simp) (hn' x)

/-! ### Cases -/

private def exWorld : World := ⟨fun _ => some fun _ => [], some [.missing, sampleFile], fun _ => none, false, ⟨id, id, id⟩⟩

private theorem exLine : Line houndKnows [b!"-repos", b!"a,b", b!"-context", b!"030", b!"--", b!"-x"]
    [(b!"repos", .str b!"a,b"), (b!"context", .int 24)] [b!"-x"] :=
  (parse_exact good_hound _ _ _).1 (by decide +kernel)

private theorem exGood : ∀ f ∈ [ConfFile.missing, sampleFile], GoodFile f := fun f hf => Classical.byContradiction fun h => by
  have := (conf_fails_iff (some [.missing, sampleFile]) ⟨[], b!"localhost:6080"⟩).2 (.inr ⟨_, rfl, f, hf, h⟩)
  rw [sample_loads] at this
  cases this

/-- `hound -repos a,b -context 030 -- -x`, with a configuration file that names the server. -/
example : ∃ (host : Bytes) (req₁ req₂ : Request), host = b!"hound.example" ∧ AsksFor req₁ host b!"-x" b!"a,b" [] 24 false false ∧
    req₂.url = b!"http://" ++ host ++ b!"/api/v1/repos" ∧
    ∀ net, net req₁ = none → houndMain [] { exWorld with net := net } [b!"-repos", b!"a,b", b!"-context", b!"030", b!"--", b!"-x"] = .ran .panic := by
  obtain ⟨flag, repos, only, context, ic, stats, ht, hyes, -⟩ := typed_is_asked [] exWorld ⟨fun _ => .refl _, fun _ => .refl _, fun _ => .refl _⟩ exLine
  obtain ⟨files, host, req₁, req₂, hf, hh, h1, h2, -, h4⟩ := hyes ⟨⟨_, rfl, exGood⟩, by simp [exWorld]⟩
  cases hf
  have e1 := has_unique ht.repos (.inr ⟨[], _, rfl, by simp⟩)
  have e2 := has_unique ht.files (.inl ⟨rfl, by simp⟩)
  have e3 := has_unique ht.context (.inr ⟨[_], [], rfl, by simp⟩)
  have e4 := has_unique ht.ignoreCase (.inl ⟨rfl, by simp⟩)
  have e5 := has_unique ht.stats (.inl ⟨rfl, by simp⟩)
  cases e1; cases e2; cases e3; cases e4; cases e5
  refine ⟨host, req₁, req₂, ?_, h1, h2, fun net hn => h4 net (.inl hn)⟩
  have hg : hostsGiven [.missing, sampleFile] = [b!"hound.example"] := by decide +kernel
  rcases hh with ⟨h, _⟩ | ⟨a, h⟩
  · rw [hg] at h; cases h
  · rw [hg] at h
    have := congrArg List.getLast? h
    simpa using this.symm
/-- With a pattern that cannot be compiled. -/
example (net : Request → Option (Nat × Bytes)) :
    houndMain [] { exWorld with compile := fun _ => none, net := net } [b!"-repos", b!"a,b", b!"-context", b!"030", b!"--", b!"-x"] =
      .ran .panic := by
  obtain ⟨_, _, _, _, _, _, -, -, hno⟩ := typed_is_asked [] { exWorld with compile := fun _ => none }
    ⟨fun _ => .refl _, fun _ => .refl _, fun _ => .refl _⟩ exLine
  exact hno (fun h => h.2 rfl) net

end Flag
end Hound
