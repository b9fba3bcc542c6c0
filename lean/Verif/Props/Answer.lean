import Verif.Proofs.JsonRead

namespace Hound.Wire
open Spec JsonText
open Hound.Config (Json marshalMap insertMember)

/-! ### Strings -/

theorem client_has (s : Bytes) : ClientHas s (forClient s) := ⟨_, chars_characters s, rfl⟩

theorem page_has (s : Bytes) : PageHas s (forPage s) := ⟨_, chars_characters s, rfl⟩

theorem clientHas_utf8 {s c : Bytes} (h : ClientHas s c) (hs : ValidUtf8 s) : c = s := by
  obtain ⟨rs, hr, rfl⟩ := h
  obtain ⟨rs', hv, rfl⟩ := hs
  rw [characters_unique hr (characters_text hv)]

theorem forClient_utf8 {s : Bytes} (hs : ValidUtf8 s) : forClient s = s := clientHas_utf8 (client_has s) hs

/-! ### Received by the client -/

theorem each_map_mem {α β : Type} {R : α → β → Prop} {f : α → β} : ∀ {l : List α}, (∀ x ∈ l, R x (f x)) →
    Each R l (l.map f)
  | [], _ => .nil
  | x :: _, h => .cons (h x (by simp)) (each_map_mem fun y hy => h y (by simp [hy]))

theorem convs_map {σ α : Type} (g : Bytes → σ) (f : α → Json) : ∀ l : List α, convs g (l.map f) = l.map fun x => conv g (f x)
  | [] => by simp [convs]
  | x :: l => by simp [convs, convs_map g f l]

theorem convMembers_map {σ : Type} (g : Bytes → σ) : ∀ l : List (Bytes × Json),
    convMembers g l = l.map fun e => (g e.1, conv g e.2)
  | [] => by simp [convMembers]
  | (k, v) :: l => by simp [convMembers, convMember, convMembers_map g l]

theorem allSome_map {α β γ : Type} {f : β → Option γ} {k : α → β} {h : α → γ} : ∀ {l : List α},
    (∀ x ∈ l, f (k x) = some (h x)) → allSome f (l.map k) = some (l.map h)
  | [], _ => rfl
  | x :: l, hx => by
    rw [List.map_cons, allSome, hx x (by simp), allSome_map fun y hy => hx y (by simp [hy])]
    rfl

/-- A match as it is received. -/
def gotLine {σ : Type} (g : Bytes → σ) (m : LineMatch) : GotLine σ := ⟨g m.line, m.lineno, m.before.map g, m.after.map g⟩
def gotFile {σ : Type} (g : Bytes → σ) (f : FileMatch) : GotFile σ :=
  ⟨g f.filename, f.matches_.map (gotLine g), f.autoGenerated⟩
def gotRepo {σ : Type} (g : Bytes → σ) (r : SearchResponse) : GotRepo σ :=
  ⟨r.matches_.map (gotFile g), r.filesWithMatch, g r.revision⟩

theorem sameResults_got {σ : Type} {same : Bytes → σ → Prop} {g : Bytes → σ} {r : SearchResponse}
    (h : ∀ s ∈ resultStrings r, same s (g s)) : SameResults same r (gotRepo g r) := by
  refine ⟨each_map_mem fun f hf => ⟨?_, each_map_mem fun m hm => ⟨?_, rfl, each_map_mem fun s hs => ?_,
    each_map_mem fun s hs => ?_⟩, rfl⟩, rfl, h _ (by simp [resultStrings])⟩
  all_goals apply h
  all_goals simp only [resultStrings, List.mem_cons, List.mem_flatMap, fileStrings, lineStrings, List.mem_append]
  · exact .inr ⟨f, hf, .inl rfl⟩
  · exact .inr ⟨f, hf, .inr ⟨m, hm, .inl rfl⟩⟩
  · exact .inr ⟨f, hf, .inr ⟨m, hm, .inr (.inl hs)⟩⟩
  · exact .inr ⟨f, hf, .inr ⟨m, hm, .inr (.inr hs)⟩⟩

theorem goStrs (l : List Bytes) : goList (fun v => goStr (some v)) (some (.arr (convs forClient (l.map .str)))) =
    some (l.map forClient) := by
  rw [goList, convs_map]
  exact allSome_map fun x _ => rfl

theorem goInt_nat {n : Nat} (h : n < 2 ^ 63) : goInt (some (.num (n : Int))) = some (n : Int) := by
  rw [goInt, if_pos (by omega)]

theorem forClient_ascii {l : Bytes} (h : ∀ b ∈ l, b < 128) : forClient l = l :=
  forClient_utf8 ⟨l.map UInt8.toNat, fun r hr => by
    obtain ⟨b, hb, rfl⟩ := List.mem_map.1 hr
    have := UInt8.lt_iff_toNat_lt.1 (h b hb)
    exact validRune_of (.inl (by have e : (128 : UInt8).toNat = 128 := rfl; omega)), (encodeRaw_ascii h).symm⟩

theorem conv_match (m : LineMatch) : conv forClient (matchJson m) =
    .obj [(b!"Line", .str (forClient m.line)), (b!"LineNumber", .num m.lineno),
      (b!"Before", .arr (convs forClient (m.before.map .str))), (b!"After", .arr (convs forClient (m.after.map .str)))] := by
  simp only [matchJson, conv, convMembers, convMember,
    forClient_ascii (l := b!"Line") (by decide), forClient_ascii (l := b!"LineNumber") (by decide),
    forClient_ascii (l := b!"Before") (by decide), forClient_ascii (l := b!"After") (by decide)]

theorem goLine_obj (a b c d : Value Bytes) :
    goLine (.obj [(b!"Line", a), (b!"LineNumber", b), (b!"Before", c), (b!"After", d)]) =
    match goStr (some a), goInt (some b), goList (fun v => goStr (some v)) (some c),
      goList (fun v => goStr (some v)) (some d) with
    | some l, some n, some b, some a => some ⟨l, n, b, a⟩
    | _, _, _, _ => none := rfl

theorem goLine_match {m : LineMatch} (h : m.lineno < 2 ^ 63) :
    goLine (conv forClient (matchJson m)) = some (gotLine forClient m) := by
  rw [conv_match, goLine_obj, goInt_nat h, goStrs, goStrs]
  rfl

theorem conv_file (f : FileMatch) : conv forClient (fileJson f) =
    .obj [(b!"Filename", .str (forClient f.filename)), (b!"Matches", .arr (convs forClient (f.matches_.map matchJson))),
      (b!"AutoGenerated", .bool f.autoGenerated)] := by
  simp only [fileJson, conv, convMembers, convMember,
    forClient_ascii (l := b!"Filename") (by decide), forClient_ascii (l := b!"Matches") (by decide),
    forClient_ascii (l := b!"AutoGenerated") (by decide)]

theorem goFile_obj (a b c : Value Bytes) :
    goFile (.obj [(b!"Filename", a), (b!"Matches", b), (b!"AutoGenerated", c)]) =
    match goStr (some a), goList goLine (some b), goBool (some c) with
    | some n, some m, some a => some ⟨n, m, a⟩
    | _, _, _ => none := rfl

theorem goFile_file {f : FileMatch} (h : ∀ m ∈ f.matches_, m.lineno < 2 ^ 63) :
    goFile (conv forClient (fileJson f)) = some (gotFile forClient f) := by
  have e : goList goLine (some (.arr (convs forClient (f.matches_.map matchJson)))) =
      some (f.matches_.map (gotLine forClient)) := by
    rw [goList, convs_map]
    exact allSome_map fun m hm => goLine_match (h m hm)
  rw [conv_file, goFile_obj, e]
  rfl

theorem conv_response {σ : Type} (g : Bytes → σ) {r : SearchResponse} (hne : r.matches_ ≠ []) :
    conv g (responseJson r) =
    .obj [(g b!"Matches", .arr (convs g (r.matches_.map fileJson))), (g b!"FilesWithMatch", .num r.filesWithMatch),
      (g b!"Revision", .str (g r.revision))] := by
  simp only [responseJson, conv, convMembers, convMember, if_neg hne]

theorem goRepo_obj (a b c : Value Bytes) :
    goRepo (.obj [(b!"Matches", a), (b!"FilesWithMatch", b), (b!"Revision", c)]) =
    match goList goFile (some a), goInt (some b), goStr (some c) with
    | some m, some n, some r => some ⟨m, n, r⟩
    | _, _, _ => none := rfl

theorem goRepo_response {r : SearchResponse} (hne : r.matches_ ≠ []) (h : Fits r) :
    goRepo (conv forClient (responseJson r)) = some (gotRepo forClient r) := by
  have e : goList goFile (some (.arr (convs forClient (r.matches_.map fileJson)))) =
      some (r.matches_.map (gotFile forClient)) := by
    rw [goList, convs_map]
    exact allSome_map fun m hm => goFile_file (h.2 m hm)
  rw [conv_response _ hne, forClient_ascii (l := b!"Matches") (by decide),
    forClient_ascii (l := b!"FilesWithMatch") (by decide), forClient_ascii (l := b!"Revision") (by decide),
    goRepo_obj, e, goInt_nat h.1]
  rfl

/-! ### The map of results -/

/-- The entries in the order they are written. -/
theorem marshal_sorted {α : Type} (f : α → Json) (entries : List (Bytes × α)) :
    ∃ sorted : List (Bytes × α), sorted.Perm entries ∧
      marshalMap (entries.map fun e => (e.1, f e.2)) = .obj (sorted.map fun e => (e.1, f e.2)) := by
  have key : ∀ (e : Bytes × α) (l : List (Bytes × α)), ∃ l' : List (Bytes × α), l'.Perm (e :: l) ∧
      insertMember (e.1, f e.2) (l.map fun e => (e.1, f e.2)) = l'.map fun e => (e.1, f e.2) := by
    intro e l
    induction l with
    | nil => exact ⟨[e], .refl _, rfl⟩
    | cons x xs ih =>
      rw [List.map_cons, insertMember]
      split
      · exact ⟨e :: x :: xs, .refl _, rfl⟩
      · obtain ⟨l', hp, he⟩ := ih
        exact ⟨x :: l', (hp.cons x).trans (.swap _ _ _), by rw [he]; rfl⟩
  induction entries with
  | nil => exact ⟨[], .refl _, rfl⟩
  | cons e l ih =>
    obtain ⟨s, hp, he⟩ := ih
    obtain ⟨l', hp', he'⟩ := key e s
    refine ⟨l', hp'.trans (hp.cons e), ?_⟩
    simp only [marshalMap, Json.obj.injEq] at he ⊢
    rw [List.map_cons, List.foldr_cons, he, he']

theorem lastMembers_nodup {σ β : Type} [BEq σ] [LawfulBEq σ] : ∀ {l : List (σ × β)}, (l.map (·.1)).Nodup →
    lastMembers l = l
  | [], _ => rfl
  | e :: l, h => by
    rw [List.map_cons, List.nodup_cons] at h
    rw [lastMembers, if_neg, lastMembers_nodup h.2]
    intro hc
    obtain ⟨x, hx, hk⟩ := List.any_eq_true.1 hc
    exact h.1 (List.mem_map.2 ⟨x, hx, by simpa using hk⟩)

theorem goMap_results {sorted : List (Bytes × SearchResponse)} (h : ResultMap sorted) :
    goMap goRepo (some (conv forClient (.obj (sorted.map fun e => (e.1, responseJson e.2))))) =
      some (sorted.map fun e => (e.1, gotRepo forClient e.2)) := by
  rw [conv, goMap, convMembers_map, List.map_map]
  have := allSome_map (l := sorted) (f := fun e => (goRepo e.2).map fun v => (e.1, v))
    (k := (fun e : Bytes × Json => (forClient e.1, conv forClient e.2)) ∘ fun e => (e.1, responseJson e.2))
    (h := fun e => (e.1, gotRepo forClient e.2)) fun e he => by
      simp only [Function.comp_apply, forClient_utf8 (h.names e he), goRepo_response (h.found e he) (h.fits e he)]
      rfl
  rw [this, Option.map_some, lastMembers_nodup]
  rw [List.map_map]
  exact h.once

theorem resultMap_perm {a b : List (Bytes × SearchResponse)} (hp : a.Perm b) (h : ResultMap b) : ResultMap a where
  once := (hp.map _).nodup_iff.2 h.once
  names e he := h.names e (hp.mem_iff.1 he)
  found e he := h.found e (hp.mem_iff.1 he)
  fits e he := h.fits e (hp.mem_iff.1 he)

/-! ### Received by the page -/

theorem forPage_ascii {l : Bytes} (h : ∀ b ∈ l, b < 128) : forPage l = Ui.js l := by
  have hv : ∀ r ∈ l.map UInt8.toNat, validRune r = true := by
    intro r hr
    obtain ⟨b, hb, rfl⟩ := List.mem_map.1 hr
    have := UInt8.lt_iff_toNat_lt.1 (h b hb)
    exact validRune_of (.inl (by have e : (128 : UInt8).toNat = 128 := rfl; omega))
  have hc := characters_text hv
  rw [encodeRaw_ascii h] at hc
  rw [forPage, characters_unique (chars_characters l) hc, List.flatMap_map, Ui.js]
  clear hc hv
  induction l with
  | nil => rfl
  | cons b l ih =>
    have hb := UInt8.lt_iff_toNat_lt.1 (h b (by simp))
    rw [List.flatMap_cons, ih fun x hx => h x (by simp [hx]), List.map_cons, Ui.units,
      if_pos (show b.toNat < 0x10000 by have e : (128 : UInt8).toNat = 128 := rfl; omega)]
    simp

theorem jsStrs (l : List Bytes) : jsArr (fun v => jsStr (some v)) (some (.arr (convs forPage (l.map .str)))) =
    some (l.map forPage) := by
  rw [jsArr, convs_map]
  exact allSome_map fun x _ => rfl

theorem jsLine_obj (a b c d : Value Ui.JsStr) :
    jsLine (.obj [(Ui.js b!"Line", a), (Ui.js b!"LineNumber", b), (Ui.js b!"Before", c), (Ui.js b!"After", d)]) =
    match jsStr (some a), jsNum (some b), jsArr (fun v => jsStr (some v)) (some c),
      jsArr (fun v => jsStr (some v)) (some d) with
    | some l, some n, some b, some a => some ⟨l, n, b, a⟩
    | _, _, _, _ => none := rfl

theorem jsLine_match (m : LineMatch) : jsLine (conv forPage (matchJson m)) = some (gotLine forPage m) := by
  have e : conv forPage (matchJson m) =
      .obj [(Ui.js b!"Line", .str (forPage m.line)), (Ui.js b!"LineNumber", .num m.lineno),
        (Ui.js b!"Before", .arr (convs forPage (m.before.map .str))),
        (Ui.js b!"After", .arr (convs forPage (m.after.map .str)))] := by
    simp only [matchJson, conv, convMembers, convMember,
      forPage_ascii (l := b!"Line") (by decide), forPage_ascii (l := b!"LineNumber") (by decide),
      forPage_ascii (l := b!"Before") (by decide), forPage_ascii (l := b!"After") (by decide)]
  rw [e, jsLine_obj, jsStrs, jsStrs]
  rfl

theorem jsFile_obj (a b c : Value Ui.JsStr) :
    jsFile (.obj [(Ui.js b!"Filename", a), (Ui.js b!"Matches", b), (Ui.js b!"AutoGenerated", c)]) =
    match jsStr (some a), jsArr jsLine (some b), jsBool (some c) with
    | some n, some m, some a => some ⟨n, m, a⟩
    | _, _, _ => none := rfl

theorem jsFile_file (f : FileMatch) : jsFile (conv forPage (fileJson f)) = some (gotFile forPage f) := by
  have e : conv forPage (fileJson f) =
      .obj [(Ui.js b!"Filename", .str (forPage f.filename)),
        (Ui.js b!"Matches", .arr (convs forPage (f.matches_.map matchJson))),
        (Ui.js b!"AutoGenerated", .bool f.autoGenerated)] := by
    simp only [fileJson, conv, convMembers, convMember,
      forPage_ascii (l := b!"Filename") (by decide), forPage_ascii (l := b!"Matches") (by decide),
      forPage_ascii (l := b!"AutoGenerated") (by decide)]
  have e' : jsArr jsLine (some (.arr (convs forPage (f.matches_.map matchJson)))) =
      some (f.matches_.map (gotLine forPage)) := by
    rw [jsArr, convs_map]
    exact allSome_map fun m _ => jsLine_match m
  rw [e, jsFile_obj, e']
  rfl

theorem jsRepo_obj (a b c : Value Ui.JsStr) :
    jsRepo (.obj [(Ui.js b!"Matches", a), (Ui.js b!"FilesWithMatch", b), (Ui.js b!"Revision", c)]) =
    match jsArr jsFile (some a), jsNum (some b), jsStr (some c) with
    | some m, some n, some r => some ⟨m, n, r⟩
    | _, _, _ => none := rfl

theorem jsRepo_response {r : SearchResponse} (hne : r.matches_ ≠ []) :
    jsRepo (conv forPage (responseJson r)) = some (gotRepo forPage r) := by
  have e' : jsArr jsFile (some (.arr (convs forPage (r.matches_.map fileJson)))) =
      some (r.matches_.map (gotFile forPage)) := by
    rw [jsArr, convs_map]
    exact allSome_map fun m _ => jsFile_file m
  rw [conv_response _ hne, forPage_ascii (l := b!"Matches") (by decide),
    forPage_ascii (l := b!"FilesWithMatch") (by decide), forPage_ascii (l := b!"Revision") (by decide), jsRepo_obj, e']
  rfl

/-- Different texts are different on the page. -/
theorem forPage_inj {a b : Bytes} (ha : ValidUtf8 a) (hb : ValidUtf8 b) (h : forPage a = forPage b) : a = b := by
  obtain ⟨ra, hra, rfl⟩ := ha
  obtain ⟨rb, hrb, rfl⟩ := hb
  rw [forPage, forPage, characters_unique (chars_characters _) (characters_text hra),
    characters_unique (chars_characters _) (characters_text hrb)] at h
  have h1 := Ui.codePoints_text hra (lone := none)
  have h2 := Ui.codePoints_text hrb (lone := none)
  rw [h, h2] at h1
  rw [Option.some.inj h1]

/-! ### The answer as a whole -/

theorem goResponse_plain (a : Value Bytes) : goResponse (.obj [(b!"Results", a)]) =
    match goMap goRepo (some a), goStats none with
    | some r, some s => some ⟨r, s⟩
    | _, _ => none := rfl

theorem goResponse_stats (a b : Value Bytes) : goResponse (.obj [(b!"Results", a), (b!"Stats", b)]) =
    match goMap goRepo (some a), goStats (some b) with
    | some r, some s => some ⟨r, s⟩
    | _, _ => none := rfl

theorem goStats_obj (a b : Value Bytes) : goStats (some (.obj [(b!"FilesOpened", a), (b!"Duration", b)])) =
    match goInt (some a), goInt (some b) with
    | some f, some d => some (some (f, d))
    | _, _ => none := rfl

theorem conv_plain {σ : Type} (g : Bytes → σ) (v : Json) :
    conv g (.obj [(b!"Results", v)]) = .obj [(g b!"Results", conv g v)] := by
  simp only [conv, convMembers, convMember]

theorem conv_stats {σ : Type} (g : Bytes → σ) (v : Json) (s : Stats) :
    conv g (.obj [(b!"Results", v), (b!"Stats", statsJson s)]) =
    .obj [(g b!"Results", conv g v),
      (g b!"Stats", .obj [(g b!"FilesOpened", .num s.filesOpened), (g b!"Duration", .num s.duration)])] := by
  simp only [conv, convMembers, convMember, statsJson]

theorem client_answer (stats : Bool) {results : List (Bytes × SearchResponse)} {s : Stats} (h : ResultMap results)
    (hs : s.filesOpened < 2 ^ 63 ∧ s.duration < 2 ^ 63) : ∃ sorted : List (Bytes × SearchResponse), sorted.Perm results ∧
    clientSearch (some (answer stats (.ok (results, s)))) =
      .ok ⟨sorted.map fun e => (e.1, gotRepo forClient e.2),
        if stats then some ((s.filesOpened : Int), (s.duration : Int)) else none⟩ := by
  obtain ⟨sorted, hp, he⟩ := marshal_sorted responseJson results
  refine ⟨sorted, hp, ?_⟩
  have hm := goMap_results (resultMap_perm hp h)
  simp only [clientSearch, answer, ne_eq, not_true_eq_false, if_false, goRead_encode, Option.bind_some, answerJson, he]
  cases stats with
  | true =>
    simp only [if_true]
    rw [conv_stats, forClient_ascii (l := b!"Results") (by decide), forClient_ascii (l := b!"Stats") (by decide),
      forClient_ascii (l := b!"FilesOpened") (by decide), forClient_ascii (l := b!"Duration") (by decide),
      goResponse_stats, hm, goStats_obj, goInt_nat hs.1, goInt_nat hs.2]
  | false =>
    simp only [Bool.false_eq_true, if_false]
    rw [conv_plain, forClient_ascii (l := b!"Results") (by decide), goResponse_plain, hm]
    rfl

theorem lookup_map {β γ : Type} {f : β → γ} {l : List (Bytes × β)} {n : Bytes} {g : γ}
    (h : (l.map fun e => (e.1, f e.2)).lookup n = some g) : ∃ r, (n, r) ∈ l ∧ g = f r := by
  induction l with
  | nil => cases h
  | cons e l ih =>
    rw [List.map_cons, List.lookup_cons] at h
    split at h
    · rename_i hk
      refine ⟨e.2, ?_, (Option.some.inj h).symm⟩
      rw [eq_of_beq hk]
      exact List.mem_cons_self
    · obtain ⟨r, hr, hg⟩ := ih h
      exact ⟨r, List.mem_cons_of_mem _ hr, hg⟩

theorem lookup_mem {β γ : Type} {f : β → γ} {l : List (Bytes × β)} {n : Bytes} {r : β} (hn : (l.map (·.1)).Nodup)
    (h : (n, r) ∈ l) : (l.map fun e => (e.1, f e.2)).lookup n = some (f r) := by
  induction l with
  | nil => cases h
  | cons e l ih =>
    rw [List.map_cons, List.nodup_cons] at hn
    rw [List.map_cons, List.lookup_cons]
    rcases List.mem_cons.1 h with rfl | h
    · rw [beq_self_eq_true]
    · have : (n == e.1) = false := by
        rw [beq_eq_false_iff_ne]
        rintro rfl
        exact hn.1 (List.mem_map.2 ⟨_, h, rfl⟩)
      rw [this, ih hn.2 h]

/-- C64: whatever a search found, the client receives: every repository with its files, matches, context, numbers and
revision, in the same order and with the same characters, and nothing else. -/
theorem client_receives (stats : Bool) {results : List (Bytes × SearchResponse)} {s : Stats} (h : ResultMap results)
    (hs : s.filesOpened < 2 ^ 63 ∧ s.duration < 2 ^ 63) : ∃ got,
    clientSearch (some (answer stats (.ok (results, s)))) = .ok got ∧
    (∀ n r, (n, r) ∈ results → ∃ g, got.results.lookup n = some g ∧ SameResults ClientHas r g) ∧
    (∀ n g, got.results.lookup n = some g → ∃ r, (n, r) ∈ results) ∧
    got.stats = if stats then some ((s.filesOpened : Int), (s.duration : Int)) else none := by
  obtain ⟨sorted, hp, he⟩ := client_answer stats h hs
  refine ⟨_, he, fun n r hr => ?_, fun n g hg => ?_, rfl⟩
  · exact ⟨_, lookup_mem (resultMap_perm hp h).once (hp.mem_iff.2 hr), sameResults_got fun s _ => client_has s⟩
  · obtain ⟨r, hr, _⟩ := lookup_map hg
    exact ⟨r, hp.mem_iff.1 hr⟩

/-- C64: all the client receives is byte for byte what the search found. -/
def ClientExactFull : Prop := ∀ (stats : Bool) (results : List (Bytes × SearchResponse)) (s : Stats), ResultMap results →
  s.filesOpened < 2 ^ 63 ∧ s.duration < 2 ^ 63 → ∃ got, clientSearch (some (answer stats (.ok (results, s)))) = .ok got ∧
    ∀ n r, (n, r) ∈ results → ∃ g, got.results.lookup n = some g ∧ SameResults (fun s c => c = s) r g

/-- C64: for results whose strings are UTF-8 it is. -/
theorem client_exact_partial (stats : Bool) {results : List (Bytes × SearchResponse)} {s : Stats} (h : ResultMap results)
    (hs : s.filesOpened < 2 ^ 63 ∧ s.duration < 2 ^ 63)
    (hu : ∀ e ∈ results, ∀ x ∈ resultStrings e.2, ValidUtf8 x) : ∃ got,
    clientSearch (some (answer stats (.ok (results, s)))) = .ok got ∧
    ∀ n r, (n, r) ∈ results → ∃ g, got.results.lookup n = some g ∧ SameResults (fun s c => c = s) r g := by
  obtain ⟨sorted, hp, he⟩ := client_answer stats h hs
  refine ⟨_, he, fun n r hr => ⟨_, lookup_mem (resultMap_perm hp h).once (hp.mem_iff.2 hr), sameResults_got fun x hx => ?_⟩⟩
  exact forClient_utf8 (hu _ hr x hx)

/-- A file found in which a line has a byte that is not UTF-8. -/
def oddResponse : SearchResponse where
  matches_ := [⟨b!"a.txt", [⟨[0x63, 0x61, 0x66, 0xE9], 1, [], []⟩], false⟩]
  filesWithMatch := 1
  filesOpened := 1
  revision := b!"0c5"

theorem utf8_ascii {l : Bytes} (h : ∀ b ∈ l, b < 128) : ValidUtf8 l := by
  refine ⟨l.map UInt8.toNat, fun r hr => ?_, (encodeRaw_ascii h).symm⟩
  obtain ⟨b, hb, rfl⟩ := List.mem_map.1 hr
  have := UInt8.lt_iff_toNat_lt.1 (h b hb)
  exact validRune_of (.inl (by have e : (128 : UInt8).toNat = 128 := rfl; omega))

theorem oddMap : ResultMap [(b!"r", oddResponse)] := by
  refine ⟨by decide, ?_, ?_, ?_⟩
  · intro e he
    rw [List.mem_singleton.1 he]
    exact utf8_ascii (by decide)
  · intro e he
    rw [List.mem_singleton.1 he]
    exact List.cons_ne_nil _ _
  · intro e he
    rw [List.mem_singleton.1 he]
    refine ⟨by decide, ?_⟩
    intro f hf m hm
    rw [List.mem_singleton.1 hf] at hm
    rw [List.mem_singleton.1 hm]
    decide

/-- C64: not all the client receives is byte for byte what was found: JSON has no way to carry a byte that is not
UTF-8. -/
theorem not_clientExactFull : ¬ ClientExactFull := by
  intro hf
  obtain ⟨got, hg, hr⟩ := hf false _ ⟨0, 0⟩ oddMap (by decide)
  obtain ⟨sorted, hp, he⟩ := client_answer false (s := ⟨0, 0⟩) oddMap (by decide)
  rw [List.perm_singleton.1 hp, hg] at he
  obtain ⟨g, hl, h1⟩ := hr b!"r" oddResponse (by simp)
  have e : got.results = [(b!"r", gotRepo forClient oddResponse)] := by rw [Except.ok.inj he]; rfl
  have hg : g = gotRepo forClient oddResponse := by
    rw [e] at hl
    exact (Option.some.inj hl).symm
  subst hg
  cases h1.files with
  | cons a _ =>
    cases a.lines with
    | cons m _ => exact absurd m.line (by decide)

theorem nodup_forPage {l : List Bytes} (h : l.Nodup) (hu : ∀ n ∈ l, ValidUtf8 n) : (l.map forPage).Nodup := by
  induction l with
  | nil => exact .nil
  | cons a l ih =>
    rw [List.nodup_cons] at h
    rw [List.map_cons, List.nodup_cons]
    refine ⟨fun hm => ?_, ih h.2 fun n hn => hu n (by simp [hn])⟩
    obtain ⟨b, hb, e⟩ := List.mem_map.1 hm
    exact h.1 (forPage_inj (hu b (by simp [hb])) (hu a (by simp)) e ▸ hb)

theorem no_error (a b : Value Ui.JsStr) :
    jsProp b!"Error" (.obj [(Ui.js b!"Results", a), (Ui.js b!"Stats", b)]) = none := rfl

theorem pageResults_obj (ms : List (Ui.JsStr × Value Ui.JsStr)) (a b : Int) :
    pageResults (.obj [(Ui.js b!"Results", .obj ms),
      (Ui.js b!"Stats", .obj [(Ui.js b!"FilesOpened", .num a), (Ui.js b!"Duration", .num b)])]) =
    match allSome (fun e => (jsRepo e.2).map fun v => (e.1, v))
        ((lastMembers ms).filter fun e => jsTrue (some e.2)), some a, some b with
    | some es, some f, some d => .results es f d
    | _, _, _ => .throws := rfl

/-- C64: what a search found, the page receives in the same way. -/
theorem page_receives {results : List (Bytes × SearchResponse)} (s : Stats) (h : ResultMap results) : ∃ es,
    pageSearch (some (answer true (.ok (results, s)))) = .results es s.filesOpened s.duration ∧
    (es.map (·.1)).Nodup ∧
    (∀ n r, (n, r) ∈ results → ∃ p g, (p, g) ∈ es ∧ PageHas n p ∧ SameResults PageHas r g) ∧
    ∀ p g, (p, g) ∈ es → ∃ n r, (n, r) ∈ results ∧ PageHas n p ∧ SameResults PageHas r g := by
  obtain ⟨sorted, hp, he⟩ := marshal_sorted responseJson results
  have hs := resultMap_perm hp h
  refine ⟨sorted.map fun e => (forPage e.1, gotRepo forPage e.2), ?_, ?_, ?_, ?_⟩
  · have hn : ((sorted.map fun e => (forPage e.1, conv forPage (responseJson e.2))).map (·.1)).Nodup := by
      rw [List.map_map]
      have := nodup_forPage hs.once fun n hn => by
        obtain ⟨e, he, rfl⟩ := List.mem_map.1 hn
        exact hs.names e he
      rw [List.map_map] at this
      exact this
    have hj : jsRead (encode (answerJson results (some s))) = some (.obj [(Ui.js b!"Results",
        .obj (sorted.map fun e => (forPage e.1, conv forPage (responseJson e.2)))),
        (Ui.js b!"Stats", .obj [(Ui.js b!"FilesOpened", .num s.filesOpened), (Ui.js b!"Duration", .num s.duration)])]) := by
      rw [jsRead_encode, answerJson, he]
      show some (conv forPage (.obj [(b!"Results", _), (b!"Stats", statsJson s)])) = _
      rw [conv_stats, forPage_ascii (l := b!"Results") (by decide), forPage_ascii (l := b!"Stats") (by decide),
        forPage_ascii (l := b!"FilesOpened") (by decide), forPage_ascii (l := b!"Duration") (by decide), conv,
        convMembers_map, List.map_map]
      rfl
    have hf : ((sorted.map fun e => (forPage e.1, conv forPage (responseJson e.2))).filter
        fun e => jsTrue (some e.2)) = sorted.map fun e => (forPage e.1, conv forPage (responseJson e.2)) := by
      rw [List.filter_eq_self]
      intro e he
      obtain ⟨x, _, rfl⟩ := List.mem_map.1 he
      rfl
    have ha := allSome_map (l := sorted) (f := fun e => (jsRepo e.2).map fun v => (e.1, v))
      (k := fun e => (forPage e.1, conv forPage (responseJson e.2)))
      (h := fun e => (forPage e.1, gotRepo forPage e.2)) fun e he => by
        simp only [jsRepo_response (hs.found e he)]
        rfl
    simp only [answer, pageSearch, if_true, hj]
    rw [if_neg (by omega), no_error]
    simp only [jsTrue, Bool.false_eq_true, if_false]
    rw [pageResults_obj, lastMembers_nodup hn, hf, ha]
  · rw [List.map_map]
    have := nodup_forPage hs.once fun n hn => by
      obtain ⟨e, he, rfl⟩ := List.mem_map.1 hn
      exact hs.names e he
    rw [List.map_map] at this
    exact this
  · intro n r hr
    exact ⟨_, _, List.mem_map.2 ⟨_, hp.mem_iff.2 hr, rfl⟩, page_has n, sameResults_got fun s _ => page_has s⟩
  · intro p g hg
    obtain ⟨⟨n, r⟩, hm, e⟩ := List.mem_map.1 hg
    cases e
    exact ⟨n, r, hp.mem_iff.1 hm, page_has n, sameResults_got fun s _ => page_has s⟩

/-- C64: a search that failed is reported on the page with its message. -/
theorem page_error (stats : Bool) {msg : Bytes} (h : msg ≠ []) : ∃ e,
    pageSearch (some (answer stats (.error msg))) = .error e ∧ PageHas msg e := by
  refine ⟨forPage msg, ?_, page_has msg⟩
  have hj : jsRead (encode (errorJson msg)) = some (.obj [(Ui.js b!"Error", .str (forPage msg))]) := by
    rw [jsRead_encode, errorJson]
    simp only [conv, convMembers, convMember]
    rw [forPage_ascii (l := b!"Error") (by decide)]
  have hp : ∀ v : Value Ui.JsStr, jsProp b!"Error" (.obj [(Ui.js b!"Error", v)]) = some v := fun _ => rfl
  have ht : (forPage msg).isEmpty = false := by
    cases hm : chars msg with
    | nil =>
      have hc := chars_characters msg
      rw [hm] at hc
      exact absurd (by generalize hr : ([] : List Rune) = rs at hc; cases hc <;> first | rfl | cases hr) h
    | cons r rs =>
      rw [forPage, hm, List.flatMap_cons, Ui.units]
      split <;> rfl
  simp only [answer, pageSearch, hj]
  rw [if_neg (by omega), hp]
  simp only [jsTrue, ht, Bool.not_false, if_true]

/-- A search in two repositories, one of them with a file whose name and line are not ASCII. -/
def twoResults : List (Bytes × SearchResponse) :=
  [(b!"web", ⟨[⟨[0x63, 0xC3, 0xA9, 46, 103, 111], [⟨b!"if a < b && \"x\"", 7, [b!"\tfoo()"], []⟩], false⟩], 3, 5, b!"0c5"⟩),
   (b!"api", oddResponse)]

example : ResultMap twoResults := by
  refine ⟨by decide, ?_, ?_, ?_⟩
  · intro e he
    rcases List.mem_cons.1 he with rfl | he
    · exact utf8_ascii (by decide)
    · rw [List.mem_singleton.1 he]; exact utf8_ascii (by decide)
  · intro e he
    rcases List.mem_cons.1 he with rfl | he
    · exact List.cons_ne_nil _ _
    · rw [List.mem_singleton.1 he]; exact List.cons_ne_nil _ _
  · intro e he
    rcases List.mem_cons.1 he with rfl | he
    · refine ⟨by decide, ?_⟩
      intro f hf m hm
      rw [List.mem_singleton.1 hf] at hm
      rw [List.mem_singleton.1 hm]
      decide
    · rw [List.mem_singleton.1 he]
      refine ⟨by decide, ?_⟩
      intro f hf m hm
      rw [List.mem_singleton.1 hf] at hm
      rw [List.mem_singleton.1 hm]
      decide

example : text (matchJson ⟨b!"a < \"b\"", 7, [b!"\t"], []⟩) =
    b!"{\"Line\":\"a \\u003c \\\"b\\\"\",\"LineNumber\":7,\"Before\":[\"\\t\"],\"After\":[]}" := by decide

/-! ### C65: failures are reported by the client -/

/-- C65: when the search failed on the server, the client reports an error. -/
def ReportsFull : Prop := ∀ (stats : Bool) (msg : Bytes), ∃ e, clientSearch (some (answer stats (.error msg))) = .error e

/-- C65: it does not: whatever the message, the client takes the answer for one without results, and shows nothing. -/
theorem client_silent (stats : Bool) (msg : Bytes) :
    clientSearch (some (answer stats (.error msg))) = .ok ⟨[], none⟩ := by
  simp only [clientSearch, answer, ne_eq, not_true_eq_false, if_false, goRead_encode, Option.bind_some, errorJson, conv,
    convMembers, convMember]
  rw [forClient_ascii (l := b!"Error") (by decide)]
  rfl

theorem not_reportsFull : ¬ ReportsFull := by
  intro h
  obtain ⟨e, he⟩ := h false []
  rw [client_silent] at he
  cases he

/-- C65: the client reports a request that fails, an answer with a status other than 200, and a body that is no JSON
value or one of another kind; it reports nothing else. -/
theorem client_reports_partial (reply : Option (Nat × Bytes)) : (∃ e, clientSearch reply = .error e) ↔
    reply = none ∨ ∃ status body, reply = some (status, body) ∧
      (status ≠ 200 ∨ ∀ v, goRead body = some v → goResponse v = none) := by
  cases reply with
  | none => simp [clientSearch]
  | some r =>
    obtain ⟨status, body⟩ := r
    simp only [clientSearch, reduceCtorEq, Option.some.injEq, Prod.mk.injEq, false_or]
    by_cases h : status = 200
    · simp only [h, ne_eq, not_true_eq_false, if_false]
      cases hr : goRead body with
      | none =>
        simp only [Option.bind_none, Except.error.injEq, exists_eq', true_iff]
        exact ⟨_, _, ⟨rfl, rfl⟩, .inr (by simp [hr])⟩
      | some v =>
        cases hv : goResponse v with
        | none =>
          simp only [Option.bind_some, hv, Except.error.injEq, exists_eq', true_iff]
          exact ⟨_, _, ⟨rfl, rfl⟩, .inr (by rw [hr]; rintro w hw; cases hw; exact hv)⟩
        | some x =>
          simp only [Option.bind_some, hv, reduceCtorEq, exists_false, false_iff]
          rintro ⟨s, b, ⟨rfl, rfl⟩, h | h⟩
          · exact h rfl
          · rw [h v hr] at hv; cases hv
    · simp only [h, ne_eq, not_false_eq_true, if_true, Except.error.injEq, exists_eq', true_iff]
      exact ⟨_, _, ⟨rfl, rfl⟩, .inl h⟩

/-- C65: and if the list of repositories cannot be had, that is reported too. -/
theorem searchAndLoad_reports (s r : Option (Nat × Bytes)) : (∃ e, searchAndLoad s r = .error e) ↔
    (∃ e, clientSearch s = .error e) ∨ ∃ e, clientLoad r = .error e := by
  unfold searchAndLoad
  cases clientSearch s <;> cases clientLoad r <;> simp

example : clientSearch (some (500, b!"oops")) = .error (.status 500) := rfl
example : clientSearch (some (200, b!"<html>")) = .error .badJson := rfl

/-! ### C66: the names of the repositories -/

theorem conv_repo (r : Config.Repo) : ∃ a b c d e f g h : Value Bytes, conv forClient (Config.repoJson r) =
    .obj [(b!"url", .str (forClient r.url)), (b!"display-name", .str (forClient r.displayName)),
      (b!"ms-between-poll", a), (b!"vcs", b), (b!"vcs-config", c), (b!"url-pattern", d), (b!"exclude-dot-files", e),
      (b!"enable-poll-updates", f), (b!"enable-push-updates", g), (b!"auto-generated-files", h)] := by
  simp only [Config.repoJson, conv, convMembers, convMember]
  rw [forClient_ascii (l := b!"url") (by decide), forClient_ascii (l := b!"display-name") (by decide),
    forClient_ascii (l := b!"ms-between-poll") (by decide), forClient_ascii (l := b!"vcs") (by decide),
    forClient_ascii (l := b!"vcs-config") (by decide), forClient_ascii (l := b!"url-pattern") (by decide),
    forClient_ascii (l := b!"exclude-dot-files") (by decide), forClient_ascii (l := b!"enable-poll-updates") (by decide),
    forClient_ascii (l := b!"enable-push-updates") (by decide), forClient_ascii (l := b!"auto-generated-files") (by decide)]
  exact ⟨_, _, _, _, _, _, _, _, rfl⟩

theorem goRepoInfo_obj (u n a b c d e f g h : Value Bytes) :
    goRepoInfo (.obj [(b!"url", u), (b!"display-name", n), (b!"ms-between-poll", a), (b!"vcs", b), (b!"vcs-config", c),
      (b!"url-pattern", d), (b!"exclude-dot-files", e), (b!"enable-poll-updates", f), (b!"enable-push-updates", g),
      (b!"auto-generated-files", h)]) =
    match goStr (some n), goStr (some u) with
    | some d, some u => some (d, u)
    | _, _ => none := rfl

theorem goRepoInfo_repo (r : Config.Repo) :
    goRepoInfo (conv forClient (Config.repoJson r)) = some (forClient r.displayName, forClient r.url) := by
  obtain ⟨a, b, c, d, e, f, g, h, he⟩ := conv_repo r
  rw [he, goRepoInfo_obj]
  rfl

/-- C66: the client has, for every repository and no other, the display name and the address it was configured with. -/
theorem client_repos {repos : List (Bytes × Config.Repo)} (hn : (repos.map (·.1)).Nodup)
    (hu : ∀ e ∈ repos, ValidUtf8 e.1 ∧ ValidUtf8 e.2.displayName ∧ ValidUtf8 e.2.url) : ∃ got,
    clientLoad (some (reposAnswer repos)) = .ok got ∧
    (∀ n r, (n, r) ∈ repos → got.lookup n = some (r.displayName, r.url)) ∧
    ∀ n i, got.lookup n = some i → ∃ r, (n, r) ∈ repos := by
  obtain ⟨sorted, hp, he⟩ := marshal_sorted Config.repoJson repos
  have ho : (sorted.map (·.1)).Nodup := (hp.map _).nodup_iff.2 hn
  have hm : goMap goRepoInfo (some (conv forClient (.obj (sorted.map fun e => (e.1, Config.repoJson e.2))))) =
      some (sorted.map fun e => (e.1, (e.2.displayName, e.2.url))) := by
    rw [conv, goMap, convMembers_map, List.map_map]
    have := allSome_map (l := sorted) (f := fun e => (goRepoInfo e.2).map fun v => (e.1, v))
      (k := (fun e : Bytes × Json => (forClient e.1, conv forClient e.2)) ∘ fun e => (e.1, Config.repoJson e.2))
      (h := fun e => (e.1, (e.2.displayName, e.2.url))) fun e he => by
        obtain ⟨h1, h2, h3⟩ := hu e (hp.mem_iff.1 he)
        simp only [Function.comp_apply, forClient_utf8 h1, goRepoInfo_repo, forClient_utf8 h2, forClient_utf8 h3]
        rfl
    rw [this, Option.map_some, lastMembers_nodup]
    rw [List.map_map]
    exact ho
  refine ⟨sorted.map fun e => (e.1, (e.2.displayName, e.2.url)), ?_, fun n r hr => ?_, fun n i hi => ?_⟩
  · simp only [clientLoad, reposAnswer, goRead_encode, Config.reposJson, he, Option.bind_some, hm]
  · exact lookup_mem (f := fun r : Config.Repo => (r.displayName, r.url)) ho (hp.mem_iff.2 hr)
  · obtain ⟨r, hr, _⟩ := lookup_map (f := fun r : Config.Repo => (r.displayName, r.url)) hi
    exact ⟨r, hp.mem_iff.1 hr⟩

/-- C66: so it shows every repository under the name that follows from the configuration. -/
theorem client_names {repos : List (Bytes × Config.Repo)} (hn : (repos.map (·.1)).Nodup)
    (hu : ∀ e ∈ repos, ValidUtf8 e.1 ∧ ValidUtf8 e.2.displayName ∧ ValidUtf8 e.2.url) : ∃ got,
    clientLoad (some (reposAnswer repos)) = .ok got ∧
    ∀ n, Client.repoNameFor (fun n => got.lookup n) n =
      Client.repoNameFor (fun n => (repos.lookup n).map fun r => (r.displayName, r.url)) n := by
  obtain ⟨got, hg, h1, h2⟩ := client_repos hn hu
  refine ⟨got, hg, fun n => ?_⟩
  have hid : ∀ l : List (Bytes × Config.Repo), (l.map fun e => (e.1, id e.2)) = l := fun l => by simp
  have e : got.lookup n = (repos.lookup n).map fun r => (r.displayName, r.url) := by
    cases hl : repos.lookup n with
    | some r =>
      rw [← hid repos] at hl
      obtain ⟨r', hr', e⟩ := lookup_map hl
      rw [h1 n r' hr', e]; rfl
    | none =>
      cases hgot : got.lookup n with
      | none => rfl
      | some i =>
        obtain ⟨r, hr⟩ := h2 n i hgot
        have := lookup_mem (f := id) hn hr
        rw [hid, hl] at this
        cases this
  simp only [Client.repoNameFor, e]

example : ∀ e ∈ [(b!"hound", ({ url := b!"https://git.example/x/hound.git", displayName := [0xC3, 0x89] } : Config.Repo))],
    ValidUtf8 e.1 ∧ ValidUtf8 e.2.displayName ∧ ValidUtf8 e.2.url := by
  intro e he
  rw [List.mem_singleton.1 he]
  exact ⟨utf8_ascii (by decide), ⟨[0xC9], by decide, by decide⟩, utf8_ascii (by decide)⟩

end Hound.Wire
