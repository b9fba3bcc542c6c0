import Verif.Proofs.CmdLine
import Verif.Props.HoundCmd
/-!
C106: the command line is read as it is written.
-/

namespace Hound
namespace Flag
open Spec

/-- **C106.** The numbers that can be given are those Go can write, with their values, as far as they fit into 64 bits. -/
theorem number_exact (v : Bytes) (i : Int) : GoInt.parseInt v = some i ↔ GoInt.IsInt v i := GoInt.parseInt_iff v i

section
variable {flags : List (Bytes × Kind)}

/-- **C106.** The flags that are set and the arguments that are left are those the command line says, and there is an error (or the usage
is shown) exactly if it says nothing. -/
theorem parse_exact (hg : GoodFlags flags) (args : List Bytes) (sets : List (Bytes × Val)) (rest : List Bytes) :
    parse (formal flags) args = .ok sets rest ↔ Line flags args sets rest :=
  parseLoop_iff hg _ _ _ _ (by omega)

/-- **C106.** A command line says one thing only. -/
theorem line_unique (hg : GoodFlags flags) {args rest rest' : List Bytes} {sets sets' : List (Bytes × Val)}
    (h : Line flags args sets rest) (h' : Line flags args sets' rest') : sets = sets' ∧ rest = rest' := by
  have h1 := (parse_exact hg _ _ _).2 h
  have h2 := (parse_exact hg _ _ _).2 h'
  rw [h1] at h2
  cases h2
  exact ⟨rfl, rfl⟩

/-- **C106.** What looks like a flag is an argument only behind `--`. -/
theorem dash_argument {args rest : List Bytes} {sets : List (Bytes × Val)} (h : Line flags args sets rest) (a : Bytes)
    (r : List Bytes) (hr : rest = a :: r) (ha : a.head? = some 45) (hne : a ≠ b!"-") : ∃ pre, args = pre ++ b!"--" :: rest := by
  induction h with
  | none => cases hr
  | rest a' args h' =>
    cases hr
    rcases h' with h' | h'
    · exact absurd ha h'
    · exact absurd h' hne
  | ended args => exact ⟨[], rfl⟩
  | opt args args' rest name x sets ho _ ih =>
    obtain ⟨pre, hp⟩ := ih hr
    cases ho with
    | joined d _ v k _ _ _ _ _ => exact ⟨_ :: pre, by rw [hp]; rfl⟩
    | alone d _ _ _ _ => exact ⟨_ :: pre, by rw [hp]; rfl⟩
    | apart d _ v k _ _ _ _ _ _ => exact ⟨_ :: v :: pre, by rw [hp]; rfl⟩

private theorem opt_append {args args' : List Bytes} {name : Bytes} {x : Val} (h : Opt flags args name x args') (t : List Bytes) :
    Opt flags (args ++ t) name x (args' ++ t) := by
  cases h with
  | joined d _ v k _ _ h1 h2 h3 => exact .joined d _ v k _ _ h1 h2 h3
  | alone d _ _ h1 h2 => exact .alone d _ _ h1 h2
  | apart d _ v k _ _ h1 h2 h3 h4 => exact .apart d _ v k _ _ h1 h2 h3 h4

/-- **C106.** Any text at all can be given behind flags and `--`. -/
theorem any_argument {args : List Bytes} {sets : List (Bytes × Val)} (h : Line flags args sets []) (hd : b!"--" ∉ args)
    (rest : List Bytes) : Line flags (args ++ b!"--" :: rest) sets rest := by
  generalize hr : ([] : List Bytes) = e at h
  induction h with
  | none => exact .ended rest
  | rest => cases hr
  | ended args => exact absurd List.mem_cons_self hd
  | opt args args' _ name x sets ho _ ih =>
    refine .opt _ _ _ _ _ _ (opt_append ho _) (ih (fun hm => hd ?_) hr)
    cases ho <;> simp_all

/-- The values that are set are of the kinds of their flags. -/
private theorem typed {args rest : List Bytes} {sets : List (Bytes × Val)} (h : Line flags args sets rest) :
    ∀ e ∈ sets, ∃ k v, (e.1, k) ∈ flags ∧ Says k v e.2 := by
  induction h with
  | none => simp
  | rest => simp
  | ended => simp
  | opt args args' rest name x sets ho _ ih =>
    intro e he
    rcases List.mem_cons.1 he with rfl | he
    · cases ho with
      | joined d _ v k _ _ _ h2 h3 => exact ⟨k, v, h2, h3⟩
      | alone d _ _ _ h2 => exact ⟨.bool, b!"true", h2, .yes _ (by simp)⟩
      | apart d _ v k _ _ _ h2 _ h4 => exact ⟨k, v, h2, h4⟩
    · exact ih e he

private theorem has_mem {sets : List (Bytes × Val)} {name : Bytes} {dflt x : Val} (h : Has sets name dflt x) :
    x = dflt ∨ (name, x) ∈ sets := by
  rcases h with ⟨h, _⟩ | ⟨a, b, rfl, _⟩
  · exact .inl h
  · exact .inr (by simp)

theorem has_str (hg : GoodFlags flags) {args rest : List Bytes} {sets : List (Bytes × Val)} (h : Line flags args sets rest)
    {name : Bytes} (hn : (name, Kind.str) ∈ flags) (dflt : Bytes) :
    Has sets name (.str dflt) (.str (current sets name (.str dflt)).toStr) := by
  have hc := current_has sets name (.str dflt)
  have : ∃ b, current sets name (.str dflt) = .str b := by
    rcases has_mem hc with hx | hx
    · exact ⟨_, hx⟩
    · obtain ⟨k, v, h1, h2⟩ := typed h _ hx
      have := ((formal_iff hg.1 _ _).2 h1).symm.trans ((formal_iff hg.1 _ _).2 hn)
      cases this
      generalize current sets name (.str dflt) = y at h2
      cases h2; exact ⟨_, rfl⟩
  obtain ⟨b, hb⟩ := this
  rw [hb] at hc ⊢; exact hc

theorem has_int (hg : GoodFlags flags) {args rest : List Bytes} {sets : List (Bytes × Val)} (h : Line flags args sets rest)
    {name : Bytes} (hn : (name, Kind.int) ∈ flags) (dflt : Int) :
    Has sets name (.int dflt) (.int (current sets name (.int dflt)).toInt) := by
  have hc := current_has sets name (.int dflt)
  have : ∃ b, current sets name (.int dflt) = .int b := by
    rcases has_mem hc with hx | hx
    · exact ⟨_, hx⟩
    · obtain ⟨k, v, h1, h2⟩ := typed h _ hx
      have := ((formal_iff hg.1 _ _).2 h1).symm.trans ((formal_iff hg.1 _ _).2 hn)
      cases this
      generalize current sets name (.int dflt) = y at h2
      cases h2 <;> exact ⟨_, rfl⟩
  obtain ⟨b, hb⟩ := this
  rw [hb] at hc ⊢; exact hc

theorem has_bool (hg : GoodFlags flags) {args rest : List Bytes} {sets : List (Bytes × Val)} (h : Line flags args sets rest)
    {name : Bytes} (hn : (name, Kind.bool) ∈ flags) (dflt : Bool) :
    Has sets name (.bool dflt) (.bool (current sets name (.bool dflt)).toBool) := by
  have hc := current_has sets name (.bool dflt)
  have : ∃ b, current sets name (.bool dflt) = .bool b := by
    rcases has_mem hc with hx | hx
    · exact ⟨_, hx⟩
    · obtain ⟨k, v, h1, h2⟩ := typed h _ hx
      have := ((formal_iff hg.1 _ _).2 h1).symm.trans ((formal_iff hg.1 _ _).2 hn)
      cases this
      generalize current sets name (.bool dflt) = y at h2
      cases h2 <;> exact ⟨_, rfl⟩
  obtain ⟨b, hb⟩ := this
  rw [hb] at hc ⊢; exact hc
end

theorem good_hound : GoodFlags houndFlags := by unfold GoodFlags; decide
theorem good_houndd : GoodFlags hounddFlags := by unfold GoodFlags; decide

/-- **C106.** `hound` runs with the settings of the command line, each as given last or else its default, and with the arguments that are
left. -/
theorem hound_line (dh : Bytes) (w : Cmd.World) {args rest : List Bytes} {sets : List (Bytes × Val)}
    (h : Line houndKnows args sets rest) :
    ∃ fl : Cmd.Flags, houndMain dh w args = .ran (Cmd.command w fl rest) ∧
      (dh ≠ [] → Has sets b!"host" (.str dh) (.str fl.host)) ∧ (dh = [] → Has sets b!"host" (.str b!"localhost:6080") (.str fl.host)) ∧
      Has sets b!"repos" (.str b!"*") (.str fl.repos) ∧ Has sets b!"files" (.str []) (.str fl.files) ∧
      Has sets b!"context" (.int 2) (.int fl.context) ∧ Has sets b!"ignore-case" (.bool false) (.bool fl.ignoreCase) ∧
      Has sets b!"show-stats" (.bool false) (.bool fl.stats) ∧ Has sets b!"like-grep" (.bool false) (.bool fl.likeGrep) := by
  have g := good_hound
  refine ⟨houndSettings dh sets, ?_, fun hd => ?_, fun hd => ?_, ?_, ?_, ?_, ?_, ?_, ?_⟩
  · unfold houndMain
    rw [(parse_exact g args sets rest).2 h]
  · have := has_str g h (name := b!"host") (by decide) dh
    simpa only [houndSettings, defaultFlagForHost, if_pos hd] using this
  · have := has_str g h (name := b!"host") (by decide) b!"localhost:6080"
    simpa only [houndSettings, defaultFlagForHost, hd, ne_eq, not_true_eq_false, if_false] using this
  · exact has_str g h (by decide) _
  · exact has_str g h (by decide) _
  · exact has_int g h (by decide) _
  · exact has_bool g h (by decide) _
  · exact has_bool g h (by decide) _
  · exact has_bool g h (by decide) _

/-- **C106.** The use is shown without an error exactly if help is asked for; what can neither be read nor asks for help is an error. -/
theorem help_exact (dh : Bytes) (w : Cmd.World) (args : List Bytes) :
    (houndMain dh w args = .help ↔ Asks houndKnows args) ∧ (hounddMain args = .help ↔ Asks hounddKnows args) ∧
    (houndMain dh w args = .bad ↔ ¬ Asks houndKnows args ∧ ∀ sets rest, ¬ Line houndKnows args sets rest) ∧
    (hounddMain args = .bad ↔ ¬ Asks hounddKnows args ∧ ∀ sets rest, ¬ Line hounddKnows args sets rest) := by
  have h1 : parse (formal houndFlags) args = .help ↔ Asks houndKnows args :=
    parseLoop_help good_hound (by intro k; cases k <;> decide) _ _ (by omega)
  have h2 : parse (formal hounddFlags) args = .help ↔ Asks hounddKnows args :=
    parseLoop_help good_houndd (by intro k; cases k <;> decide) _ _ (by omega)
  have k1 : ∀ sets rest, parse (formal houndFlags) args = .ok sets rest ↔ Line houndKnows args sets rest :=
    fun sets rest => parse_exact good_hound args sets rest
  have k2 : ∀ sets rest, parse (formal hounddFlags) args = .ok sets rest ↔ Line hounddKnows args sets rest :=
    fun sets rest => parse_exact good_houndd args sets rest
  simp only [← h1, ← h2, ← k1, ← k2]
  unfold houndMain hounddMain
  refine ⟨?_, ?_, ?_, ?_⟩
  · cases parse (formal houndFlags) args <;> simp
  · cases parse (formal hounddFlags) args with
    | ok => simp only [reduceCtorEq, iff_false]; split <;> simp
    | _ => simp
  · cases parse (formal houndFlags) args <;> simp
  · cases parse (formal hounddFlags) args with
    | ok => simp only [reduceCtorEq, not_false_eq_true, true_and]; split <;> simp
    | _ => simp

/-- **C106.** `hound` runs only if the command line can be read, and if there is not exactly one argument behind the flags it does nothing
but show how it is used: no part of the command line is ignored. -/
theorem hound_only (dh : Bytes) (w : Cmd.World) (args : List Bytes) :
    ((∃ e, houndMain dh w args = .ran e) ↔ ∃ sets rest, Line houndKnows args sets rest) ∧
    (houndMain dh w args = .ran .usage ↔ ∃ sets rest, Line houndKnows args sets rest ∧ rest.length ≠ 1) := by
  have key : ∀ sets rest, parse (formal houndFlags) args = .ok sets rest ↔ Line houndKnows args sets rest :=
    fun sets rest => parse_exact good_hound args sets rest
  simp only [← key]
  unfold houndMain
  cases hp : parse (formal houndFlags) args with
  | help => simp
  | bad => simp
  | ok sets rest =>
    constructor
    · simp
    · simp only [HoundEnd.ran.injEq, Cmd.command_usage, Outcome.ok.injEq]
      constructor
      · intro h; exact ⟨_, _, ⟨rfl, rfl⟩, h⟩
      · rintro ⟨_, _, ⟨rfl, rfl⟩, h⟩; exact h

/-- **C106 (partial).** `houndd` shows its version if that is asked for, and otherwise serves the configuration file, at the address and in
the mode that the flags say, each as given last or else its default. Missing from `HounddFull`: that nothing is left over. -/
theorem houndd_line_partial {args rest : List Bytes} {sets : List (Bytes × Val)}
    (h : Line hounddKnows args sets rest) :
    (hounddMain args = .version ∧ Has sets b!"version" (.bool false) (.bool true)) ∨
    ∃ conf addr dev, hounddMain args = .serve conf addr dev ∧ Has sets b!"version" (.bool false) (.bool false) ∧
      Has sets b!"conf" (.str b!"config.json") (.str conf) ∧ Has sets b!"addr" (.str b!":6080") (.str addr) ∧
      Has sets b!"dev" (.bool false) (.bool dev) := by
  have g := good_houndd
  have hv := has_bool g h (name := b!"version") (by decide) false
  unfold hounddMain
  rw [(parse_exact g args sets rest).2 h]
  simp only
  cases hx : (current sets b!"version" (.bool false)).toBool with
  | true => rw [hx] at hv; exact .inl ⟨by simp, hv⟩
  | false =>
    rw [hx] at hv
    exact .inr ⟨_, _, _, by rw [if_neg (by simp)], hv, has_str g h (by decide) _, has_str g h (by decide) _, has_bool g h (by decide) _⟩

/-- **C106.** `houndd` refuses what cannot be read. -/
theorem houndd_only (args : List Bytes)
    (h : hounddMain args ≠ .help ∧ hounddMain args ≠ .bad) : ∃ sets rest, Line hounddKnows args sets rest := by
  have key : ∀ sets rest, parse (formal hounddFlags) args = .ok sets rest ↔ Line hounddKnows args sets rest :=
    fun sets rest => parse_exact good_houndd args sets rest
  simp only [← key]
  unfold hounddMain at h
  cases hp : parse (formal hounddFlags) args with
  | help => simp [hp] at h
  | bad => simp [hp] at h
  | ok sets rest => exact ⟨_, _, rfl⟩

/-- **C106.** The property as stated is false: `houndd` does not look at what is left of the command line. Started as
`houndd start -conf other.json`, it serves `config.json`. -/
theorem not_hounddFull : ¬ HounddFull := fun hf => by
  have h1 : hounddMain [b!"start", b!"-conf", b!"other.json"] = .serve b!"config.json" b!":6080" false := rfl
  obtain ⟨sets, hl⟩ := hf _ _ _ _ h1
  have h2 := (parse_exact good_houndd _ _ _).2 hl
  have h3 : parse (formal hounddFlags) [b!"start", b!"-conf", b!"other.json"] =
      .ok [] [b!"start", b!"-conf", b!"other.json"] := rfl
  rw [h3] at h2
  cases h2

/-! ### Cases -/

/-- A 0 at the beginning makes the number octal; underscores may be between digits only. -/
example : GoInt.IsInt b!"-0x_1F" (-31) ∧ GoInt.IsInt b!"010" 8 ∧ GoInt.IsInt b!"1_000" 1000 ∧ GoInt.IsInt b!"+0" 0 ∧
    GoInt.IsInt b!"-9223372036854775808" (-9223372036854775808) := by
  simp only [← number_exact]; decide +kernel
example : ∀ v ∈ [b!"", b!"-", b!"08", b!"1__0", b!"_1", b!"1_", b!"0x", b!"0b2", b!"9223372036854775808", b!"+-1"], ∀ i,
    ¬ GoInt.IsInt v i := by
  intro v hv i h
  rw [← number_exact] at h
  have : ∀ v ∈ [b!"", b!"-", b!"08", b!"1__0", b!"_1", b!"1_", b!"0x", b!"0b2", b!"9223372036854775808", b!"+-1"],
      GoInt.parseInt v = none := by decide +kernel
  rw [this v hv] at h; cases h

private theorem two : Says .int b!"-12" (.int (-12)) := (setValue_iff _ _ _).1 rfl

/-- `hound --repos=a,b -context -12 -ignore-case -repos c -- -x` -/
private theorem case_line : Line houndKnows
    [b!"--repos=a,b", b!"-context", b!"-12", b!"-ignore-case", b!"-repos", b!"c", b!"--", b!"-x"]
    [(b!"repos", .str b!"a,b"), (b!"context", .int (-12)), (b!"ignore-case", .bool true), (b!"repos", .str b!"c")] [b!"-x"] := by
  refine .opt _ _ _ _ _ _ (.joined b!"--" b!"repos" b!"a,b" .str _ _ (.inr rfl) (by simp) (.str _)) ?_
  refine .opt _ _ _ _ _ _ (.apart b!"-" b!"context" b!"-12" .int _ _ (.inl rfl) (by simp) (by simp) two) ?_
  refine .opt _ _ _ _ _ _ (.alone b!"-" b!"ignore-case" _ (.inl rfl) (by simp)) ?_
  refine .opt _ _ _ _ _ _ (.apart b!"-" b!"repos" b!"c" .str _ _ (.inl rfl) (by simp) (by simp) (.str _)) ?_
  exact .ended _

example (w : Cmd.World) : houndMain [] w
    [b!"--repos=a,b", b!"-context", b!"-12", b!"-ignore-case", b!"-repos", b!"c", b!"--", b!"-x"] =
    .ran (Cmd.command w ⟨b!"localhost:6080", b!"c", [], -12, true, false, false⟩ [b!"-x"]) := rfl
example (w : Cmd.World) : ∃ fl, houndMain [] w
    [b!"--repos=a,b", b!"-context", b!"-12", b!"-ignore-case", b!"-repos", b!"c", b!"--", b!"-x"] = .ran (Cmd.command w fl [b!"-x"]) :=
  let ⟨fl, h, _⟩ := hound_line [] w case_line; ⟨fl, h⟩
example : ∃ pre, [b!"--repos=a,b", b!"-context", b!"-12", b!"-ignore-case", b!"-repos", b!"c", b!"--", b!"-x"] = pre ++ b!"--" :: [b!"-x"] :=
  dash_argument case_line b!"-x" [] rfl rfl (by decide)
example : ∀ sets rest, Line houndKnows
    [b!"--repos=a,b", b!"-context", b!"-12", b!"-ignore-case", b!"-repos", b!"c", b!"--", b!"-x"] sets rest → rest = [b!"-x"] :=
  fun _ _ h => (line_unique good_hound h case_line).2
example : Line houndKnows [b!"-like-grep", b!"--", b!"--repos=x"] [(b!"like-grep", .bool true)] [b!"--repos=x"] :=
  any_argument (args := [b!"-like-grep"]) (.opt _ _ _ _ _ _ (.alone b!"-" b!"like-grep" _ (.inl rfl) (by simp)) .none) (by decide) _
/-- Flags behind the pattern, and a pattern that looks like a flag. -/
example (w : Cmd.World) : houndMain [] w [b!"x", b!"-ignore-case"] = .ran .usage ∧
    houndMain [] w [b!"-x"] = .bad ∧ houndMain [] w [b!"-h"] = .help ∧
    houndMain [] w [b!"-ignore-case", b!"false", b!"x"] = .ran .usage := ⟨rfl, rfl, rfl, rfl⟩
example (w : Cmd.World) : ∃ sets rest, Line houndKnows [b!"x", b!"-ignore-case"] sets rest ∧ rest.length ≠ 1 :=
  ((hound_only [] w _).2).1 rfl
example (w : Cmd.World) : Asks houndKnows [b!"-ignore-case", b!"--help", b!"x"] ∧ ¬ Asks houndKnows [b!"x", b!"--help"] :=
  ⟨.opt _ _ _ _ (.alone b!"-" b!"ignore-case" _ (.inl rfl) (by simp)) (.plain b!"--" b!"help" _ (.inr rfl) (.inl rfl)), fun h => by
    have := ((help_exact [] w _).1).2 h
    cases this⟩
example : ∃ conf addr dev, hounddMain [b!"-conf", b!"a.json", b!"-dev=0"] = .serve conf addr dev := ⟨_, _, _, rfl⟩
example : ∃ sets rest, Line hounddKnows [b!"-conf", b!"a.json", b!"-dev=0"] sets rest ∧
    Has sets b!"conf" (.str b!"config.json") (.str b!"a.json") := by
  obtain ⟨sets, rest, hl⟩ := houndd_only [b!"-conf", b!"a.json", b!"-dev=0"] (by decide)
  have e : hounddMain [b!"-conf", b!"a.json", b!"-dev=0"] = .serve b!"a.json" b!":6080" false := rfl
  refine ⟨sets, rest, hl, ?_⟩
  rcases houndd_line_partial hl with ⟨h, _⟩ | ⟨conf, addr, dev, h, _, hc, _⟩
  · rw [e] at h; cases h
  · rw [e] at h; cases h; exact hc

end Flag
end Hound
