import Verif.Proofs.UiUrl
import Verif.Proofs.RawInj
import Verif.Spec.WebText

/-!
# C58, C59: parameters of the web page in its requests and in its address
-/

namespace Hound.Ui
open Spec

/-! ### C59: the address of a search -/

theorem reverse_dropWhile_last {s : JsStr} (h : ∀ u, s.getLast? = some u → 32 < u) :
    (s.reverse.dropWhile (· ≤ 32)).reverse = s := by
  cases hr : s.reverse with
  | nil => rw [List.reverse_eq_nil_iff] at hr; subst hr; rfl
  | cons u t =>
    have hl : s.getLast? = some u := by rw [List.getLast?_eq_head?_reverse, hr]; rfl
    have hu := h u hl
    rw [List.dropWhile_cons, if_neg, ← hr, List.reverse_reverse]
    simp only [decide_eq_true_eq]
    rw [UInt16.le_iff_toNat_le]; rw [UInt16.lt_iff_toNat_lt] at hu
    omega

theorem filter_id {P : UInt16 → Prop} [DecidablePred P] {s : JsStr} (h : ∀ u ∈ s, P u) :
    s.filter (fun c => P c) = s := List.filter_eq_self.2 fun u hu => by simpa using h u hu

/-- The query the browser keeps of an address. -/
theorem locationSearch_of {pathname query : JsStr} (h1 : (35 : UInt16) ∉ pathname) (h2 : (63 : UInt16) ∉ pathname)
    (hne : query ≠ []) (hq : ∀ u ∈ query, u ≠ 9 ∧ u ≠ 10 ∧ u ≠ 13 ∧ u ≠ 35)
    (hl : ∀ u, query.getLast? = some u → 32 < u) :
    locationSearch (pathname ++ 63 :: query) = 63 :: normalQuery query := by
  unfold locationSearch
  have e1 : (pathname ++ 63 :: query).getLast? = query.getLast? := by
    obtain ⟨a, b, hab⟩ := List.exists_cons_of_ne_nil hne
    rw [hab]; simp [List.getLast?_cons]
  rw [reverse_dropWhile_last (by rw [e1]; exact hl)]
  have e2 : (pathname ++ 63 :: query).filter (fun c => c ≠ 9 ∧ c ≠ 10 ∧ c ≠ 13) =
      pathname.filter (fun c => c ≠ 9 ∧ c ≠ 10 ∧ c ≠ 13) ++ 63 :: query := by
    rw [List.filter_append, List.filter_cons_of_pos (by decide)]
    congr 2
    exact filter_id fun u hu => ⟨(hq u hu).1, (hq u hu).2.1, (hq u hu).2.2.1⟩
  simp only [e2]
  have hp1 : (35 : UInt16) ∉ pathname.filter (fun c => c ≠ 9 ∧ c ≠ 10 ∧ c ≠ 13) := fun h => h1 (List.mem_filter.1 h).1
  have hp2 : (63 : UInt16) ∉ pathname.filter (fun c => c ≠ 9 ∧ c ≠ 10 ∧ c ≠ 13) := fun h => h2 (List.mem_filter.1 h).1
  generalize pathname.filter (fun c => c ≠ 9 ∧ c ≠ 10 ∧ c ≠ 13) = a at hp1 hp2
  have e3 : (a ++ 63 :: query).takeWhile (· ≠ 35) = a ++ 63 :: query := by
    have := List.takeWhile_append_of_pos (p := fun c : UInt16 => decide (c ≠ 35)) (l₁ := a ++ 63 :: query) (l₂ := [])
      (by
        intro u hu
        simp only [ne_eq, decide_not, Bool.not_eq_true', decide_eq_false_iff_not]
        rintro rfl
        rcases List.mem_append.1 hu with h | h
        · exact hp1 h
        · rcases List.mem_cons.1 h with h | h
          · cases h
          · exact (hq _ h).2.2.2 rfl)
    simpa using this
  have e4 : (a ++ 63 :: query).dropWhile (· ≠ 63) = 63 :: query := by
    rw [List.dropWhile_append_of_pos]
    · simp
    · intro u hu
      simp only [ne_eq, decide_not, Bool.not_eq_true', decide_eq_false_iff_not]
      rintro rfl; exact hp2 hu
  rw [e3, e4, List.drop_one, List.tail_cons, if_neg hne]

theorem js_ascii (b : Bytes) (h : ∀ c ∈ b, c.toNat < 128) : AsciiUnits (js b) := by
  intro u hu
  obtain ⟨c, hc, rfl⟩ := List.mem_map.1 hu
  rw [toUInt16_toNat]; exact h c hc

/-- Characters that the browser leaves alone and that mean nothing in a query. -/
def keptRepos (r : Rune) : Bool := !specialQuery r && !([37, 38, 43, 61].contains r)

theorem keptRepos_lt {r : Nat} (h : keptRepos r = true) : r < 128 ∧ r ≠ 37 := by
  simp only [keptRepos, Bool.and_eq_true] at h
  refine ⟨notSpecial_lt h.1, ?_⟩
  rintro rfl
  exact absurd h.2 (by decide)

theorem keptRepos_plain {r : Nat} (h : keptRepos r = true) : ∀ u ∈ units r, u ≠ 38 ∧ u ≠ 43 ∧ u ≠ 61 := by
  have hr := (keptRepos_lt h).1
  revert h
  exact forall_lt128 (P := fun r => keptRepos r = true → ∀ u ∈ units r, u ≠ 38 ∧ u ≠ 43 ∧ u ≠ 61) (by decide +kernel) hr

theorem encodeKeeping_congr {k k' : Rune → Bool} {rs : List Rune} (h : ∀ r ∈ rs, k r = k' r) :
    encodeKeeping k rs = encodeKeeping k' rs := by
  induction rs with
  | nil => rfl
  | cons r rs ih =>
    simp only [encodeKeeping, List.flatMap_cons] at ih ⊢
    rw [h r (by simp), ih fun x hx => h x (by simp [hx])]

theorem unit_of_small {r : Nat} {rs : List Rune} (hr : r ∈ rs) (h : r < 0x10000) :
    UInt16.ofNat r ∈ rs.flatMap units := by
  refine List.mem_flatMap.2 ⟨r, hr, ?_⟩
  unfold units; rw [if_pos h]; simp

/-- The repositories as the browser writes them. -/
theorem browser_repos {rs : List Rune}
    (h : ∀ u ∈ rs.flatMap units, u ≠ 37 ∧ u ≠ 38 ∧ u ≠ 43 ∧ u ≠ 61) : browser rs = encodeKeeping keptRepos rs := by
  refine encodeKeeping_congr fun r hr => ?_
  unfold keptRepos
  cases hs : specialQuery r with
  | true => rfl
  | false =>
    have hlt : (r : Nat) < 0x10000 := Nat.lt_trans (notSpecial_lt (r := r) (by simp [hs])) (by decide)
    have := h _ (unit_of_small hr hlt)
    cases hc : [37, 38, 43, 61].contains r with
    | false => rfl
    | true =>
      exfalso
      simp only [List.contains_eq_mem, List.mem_cons, List.not_mem_nil, or_false, decide_eq_true_eq] at hc
      rcases hc with rfl | rfl | rfl | rfl
      · exact this.1 rfl
      · exact this.2.1 rfl
      · exact this.2.2.1 rfl
      · exact this.2.2.2 rfl

/-- Repositories an address can hold as they are. -/
def PlainRepos (s : JsStr) : Prop :=
  (∀ u ∈ s, u ≠ 9 ∧ u ≠ 10 ∧ u ≠ 13 ∧ u ≠ 35 ∧ u ≠ 37 ∧ u ≠ 38 ∧ u ≠ 43 ∧ u ≠ 61) ∧
  ∀ u, s.getLast? = some u → 32 < u

theorem plain_query {u : UInt16} (h : Plain u) : u ≠ 9 ∧ u ≠ 10 ∧ u ≠ 13 ∧ u ≠ 35 := ⟨h.2.1, h.2.2.1, h.2.2.2.1, h.2.2.2.2.1⟩

theorem part_ok {name : Bytes} {e : JsStr} (hn : ∀ u ∈ js name, u ≠ 38) (he : ∀ u ∈ e, u ≠ 38) :
    (38 : UInt16) ∉ js name ++ 61 :: e := by
  intro h
  rcases List.mem_append.1 h with h | h
  · exact hn _ h rfl
  · rcases List.mem_cons.1 h with h | h
    · cases h
    · exact he _ h rfl

/-- **C59**, for names of repositories that an address can hold: whatever the query, the file patterns
and the flags are, the address the page makes of a search leads back to the same search. Repositories are
restricted to names without `& = + % #`, tabs and line ends, that do not end in a space (`PlainRepos`). -/
theorem address_leads_back_partial {pathname : JsStr} (h1 : (35 : UInt16) ∉ pathname) (h2 : (63 : UInt16) ∉ pathname)
    (p : Form) (ht : Form.Texts p) (hr : PlainRepos p.repos) : LeadsBack pathname p := by
  obtain ⟨⟨q, hq, eq⟩, ⟨i, hi, ei⟩, ⟨l, hl, el⟩, ⟨f, hf, ef⟩, ⟨x, hx, ex⟩, ⟨r, hrv, er⟩⟩ := ht
  let body : JsStr := js b!"q=" ++ encodeKeeping uriKept q ++ js b!"&i=" ++ encodeKeeping uriKept i ++ js b!"&literal=" ++
    encodeKeeping uriKept l ++ js b!"&files=" ++ encodeKeeping uriKept f ++ js b!"&excludeFiles=" ++
    encodeKeeping uriKept x ++ js b!"&repos="
  have hpath : historyPath pathname p = some (pathname ++ 63 :: (body ++ p.repos)) := by
    unfold historyPath
    rw [eq, ei, el, ef, ex, encodeURIComponent_text hq, encodeURIComponent_text hi, encodeURIComponent_text hl,
      encodeURIComponent_text hf, encodeURIComponent_text hx]
    simp only [Option.bind_eq_bind, Option.bind_some, Option.pure_def, Option.some.injEq]
    have : js b!"?q=" = 63 :: js b!"q=" := by decide
    rw [this]
    simp only [body, List.append_assoc, List.cons_append]
  have hcu : ∀ rs, AsciiUnits (encodeKeeping uriKept rs) := fun rs u hu => (component_plain rs u hu).1
  have hba : AsciiUnits body := by
    intro u hu
    simp only [body, List.mem_append] at hu
    have ha : ∀ b : Bytes, (∀ c ∈ b, c.toNat < 128) → u ∈ js b → u.toNat < 128 := fun b hb h => js_ascii b hb u h
    rcases hu with (((((((((hu | hu) | hu) | hu) | hu) | hu) | hu) | hu) | hu) | hu) | hu
    · exact ha _ (by decide) hu
    · exact hcu _ _ hu
    · exact ha _ (by decide) hu
    · exact hcu _ _ hu
    · exact ha _ (by decide) hu
    · exact hcu _ _ hu
    · exact ha _ (by decide) hu
    · exact hcu _ _ hu
    · exact ha _ (by decide) hu
    · exact hcu _ _ hu
    · exact ha _ (by decide) hu
  have hbq : ∀ u ∈ body, u ≠ 9 ∧ u ≠ 10 ∧ u ≠ 13 ∧ u ≠ 35 := by
    intro u hu
    simp only [body, List.mem_append] at hu
    have ha : ∀ b : Bytes, (∀ u ∈ js b, u ≠ 9 ∧ u ≠ 10 ∧ u ≠ 13 ∧ u ≠ 35) → u ∈ js b → u ≠ 9 ∧ u ≠ 10 ∧ u ≠ 13 ∧ u ≠ 35 :=
      fun b hb h => hb u h
    have hc : ∀ rs, u ∈ encodeKeeping uriKept rs → u ≠ 9 ∧ u ≠ 10 ∧ u ≠ 13 ∧ u ≠ 35 :=
      fun rs h => plain_query (component_plain rs u h)
    rcases hu with (((((((((hu | hu) | hu) | hu) | hu) | hu) | hu) | hu) | hu) | hu) | hu
    · exact ha _ (by decide) hu
    · exact hc _ hu
    · exact ha _ (by decide) hu
    · exact hc _ hu
    · exact ha _ (by decide) hu
    · exact hc _ hu
    · exact ha _ (by decide) hu
    · exact hc _ hu
    · exact ha _ (by decide) hu
    · exact hc _ hu
    · exact ha _ (by decide) hu
  have hlast : ∀ u, (body ++ p.repos).getLast? = some u → 32 < u := by
    intro u hu
    cases hp : p.repos with
    | nil =>
      rw [hp, List.append_nil] at hu
      have : js b!"&repos=" = js b!"&repos" ++ [61] := by decide
      simp only [body, this, ← List.append_assoc] at hu
      rw [List.getLast?_concat] at hu
      cases hu; decide
    | cons a t =>
      have hn : p.repos ≠ [] := by simp [hp]
      rw [List.getLast?_append, List.getLast?_eq_some_getLast hn, Option.some_or] at hu
      exact hr.2 u (by rw [List.getLast?_eq_some_getLast hn]; exact hu)
  have hsearch : locationSearch (pathname ++ 63 :: (body ++ p.repos)) = 63 :: normalQuery (body ++ p.repos) := by
    refine locationSearch_of h1 h2 ?_ ?_ hlast
    · intro h
      have := congrArg List.length h
      have h' : (js b!"q=").length = 2 := by decide
      simp only [body, List.length_append, List.length_nil, h'] at this
      omega
    · intro u hu
      rcases List.mem_append.1 hu with hu | hu
      · exact hbq u hu
      · have := hr.1 u hu
        exact ⟨this.1, this.2.1, this.2.2.1, this.2.2.2.1⟩
  have hnorm : normalQuery (body ++ p.repos) =
      (js b!"q" ++ 61 :: encodeKeeping kept' q) ++ 38 :: ((js b!"i" ++ 61 :: encodeKeeping kept' i) ++ 38 ::
      ((js b!"literal" ++ 61 :: encodeKeeping kept' l) ++ 38 :: ((js b!"files" ++ 61 :: encodeKeeping kept' f) ++ 38 ::
      ((js b!"excludeFiles" ++ 61 :: encodeKeeping kept' x) ++ 38 :: (js b!"repos" ++ 61 :: encodeKeeping keptRepos r))))) := by
    unfold normalQuery
    rw [codePoints_ascii hba, er, codePoints_text hrv]
    simp only [Option.map_some, Option.getD_some]
    show browser _ = _
    rw [browser_append, browser_repos (rs := r) (fun u hu => by
      have := hr.1 u (by rw [er]; exact hu)
      exact ⟨this.2.2.2.2.1, this.2.2.2.2.2.1, this.2.2.2.2.2.2.1, this.2.2.2.2.2.2.2⟩)]
    simp only [body, List.map_append, browser_append, browser_component]
    have e1 : browser ((js b!"q=").map UInt16.toNat) = js b!"q" ++ [61] := by decide +kernel
    have e2 : browser ((js b!"&i=").map UInt16.toNat) = 38 :: (js b!"i" ++ [61]) := by decide +kernel
    have e3 : browser ((js b!"&literal=").map UInt16.toNat) = 38 :: (js b!"literal" ++ [61]) := by decide +kernel
    have e4 : browser ((js b!"&files=").map UInt16.toNat) = 38 :: (js b!"files" ++ [61]) := by decide +kernel
    have e5 : browser ((js b!"&excludeFiles=").map UInt16.toNat) = 38 :: (js b!"excludeFiles" ++ [61]) := by decide +kernel
    have e6 : browser ((js b!"&repos=").map UInt16.toNat) = 38 :: (js b!"repos" ++ [61]) := by decide +kernel
    rw [e1, e2, e3, e4, e5, e6]
    simp only [List.append_assoc, List.cons_append, List.nil_append]
  have hc38 : ∀ rs, ∀ u ∈ encodeKeeping kept' rs, u ≠ 38 := fun rs u hu => (component'_plain rs u hu).2.2.2.2.2.1
  have hc61 : ∀ rs, ∀ u ∈ encodeKeeping kept' rs, u ≠ 61 ∧ u ≠ 43 := fun rs u hu =>
    ⟨(component'_plain rs u hu).2.2.2.2.2.2.2.1, (component'_plain rs u hu).2.2.2.2.2.2.1⟩
  have hr38 : ∀ u ∈ encodeKeeping keptRepos r, u ≠ 38 ∧ u ≠ 43 ∧ u ≠ 61 :=
    keeping_all (fun b u hu => by
      have := pctUnits_plain b u hu
      exact ⟨this.2.2.2.2.2.1, this.2.2.2.2.2.2.1, this.2.2.2.2.2.2.2.1⟩) fun _ _ h => keptRepos_plain h
  unfold LeadsBack reload
  rw [hpath]
  simp only [Option.bind_eq_bind, Option.bind_some]
  rw [hsearch]
  unfold paramsFromQueryString
  rw [if_neg (by simp), List.drop_one, List.tail_cons, hnorm]
  rw [splitUnit_append (part_ok (by decide) (hc38 q)), splitUnit_append (part_ok (by decide) (hc38 i)),
    splitUnit_append (part_ok (by decide) (hc38 l)), splitUnit_append (part_ok (by decide) (hc38 f)),
    splitUnit_append (part_ok (by decide) (hc38 x)), splitUnit_single (part_ok (by decide) fun u hu => (hr38 u hu).1)]
  simp only [List.foldl_cons, List.foldl_nil, Option.bind_some]
  rw [paramPart_of (by decide) (hc61 q) (by decide +kernel) (decode_component' hq), Option.bind_some,
    paramPart_of (by decide) (hc61 i) (by decide +kernel) (decode_component' hi), Option.bind_some,
    paramPart_of (by decide) (hc61 l) (by decide +kernel) (decode_component' hl), Option.bind_some,
    paramPart_of (by decide) (hc61 f) (by decide +kernel) (decode_component' hf), Option.bind_some,
    paramPart_of (by decide) (hc61 x) (by decide +kernel) (decode_component' hx), Option.bind_some,
    paramPart_of (by decide) (fun u hu => ⟨(hr38 u hu).2.2, (hr38 u hu).2.1⟩) (by decide +kernel)
      (decodeURIComponent_keeping (fun _ h => keptRepos_lt h) hrv)]
  refine ⟨_, rfl, ?_, ?_, ?_, ?_, ?_, ?_⟩
  · rw [eq]; rfl
  · rw [ei]; rfl
  · rw [el]; rfl
  · rw [ef]; rfl
  · rw [ex]; rfl
  · rw [er]; rfl

/-- **C59**, the full statement: the address of every search leads back to it. -/
def AddressFull : Prop :=
  ∀ (pathname : JsStr) (p : Form), (35 : UInt16) ∉ pathname → (63 : UInt16) ∉ pathname → Form.Texts p →
    LeadsBack pathname p

theorem ascii_text (b : Bytes) (h : ∀ c ∈ b, c.toNat < 128) : IsText (js b) := by
  refine ⟨b.map UInt8.toNat, ?_, ?_⟩
  · intro r hr
    obtain ⟨c, hc, rfl⟩ := List.mem_map.1 hr
    have := h c hc
    simp only [validRune, Bool.or_eq_true, decide_eq_true_eq]
    left; show c.toNat < 0xD800; omega
  · induction b with
    | nil => rfl
    | cons c b ih =>
      rw [List.map_cons, List.flatMap_cons, ← ih fun x hx => h x (by simp [hx]), units_ascii (h c (by simp))]
      simp only [js, List.map_cons, List.singleton_append, List.cons.injEq, and_true]
      apply UInt16.toNat_inj.1
      rw [u16_toNat (by have := h c (by simp); omega), toUInt16_toNat]

/-- A search in the repository `c++`. -/
def exPlus : Form := ⟨js b!"x", js b!"nope", js b!"nope", [], [], js b!"c++"⟩

theorem exPlus_texts : Form.Texts exPlus :=
  ⟨ascii_text b!"x" (by decide), ascii_text b!"nope" (by decide), ascii_text b!"nope" (by decide),
    ascii_text b!"" (by decide), ascii_text b!"" (by decide), ascii_text b!"c++" (by decide)⟩

/-- The repository of that address is `c` followed by two spaces. -/
theorem exPlus_reload : (reload (js b!"/") exPlus).map (fun m => m (js b!"repos")) = some (some (js b!"c  ")) := by
  decide +kernel

theorem not_addressFull : ¬ AddressFull := by
  intro h
  obtain ⟨m, hm, -, -, -, -, -, hr⟩ := h (js b!"/") exPlus (by decide) (by decide) exPlus_texts
  have := exPlus_reload
  rw [hm, Option.map_some, hr] at this
  exact absurd this (by decide)

/-- A name with `=` is dropped, so that the address searches all repositories. -/
example : (reload (js b!"/") { exPlus with repos := js b!"a=b" }).map (fun m => m (js b!"repos")) =
    some (some (js b!"*")) := by decide +kernel

/-- A name with `%` can make the page fail when it is loaded. -/
example : (reload (js b!"/") { exPlus with repos := js b!"100%" }).isNone = true := by decide +kernel

/-- A query of characters that mean something in an address, with two repositories. -/
example : LeadsBack (js b!"/") ⟨js b!"a&b=c+d%20#? '", js b!"fosho", js b!"nope", js b!"\\.go$", [], js b!"hound,my repo"⟩ :=
  address_leads_back_partial (by decide) (by decide) _
    ⟨ascii_text _ (by decide), ascii_text _ (by decide), ascii_text _ (by decide), ascii_text _ (by decide),
      ascii_text b!"" (by decide), ascii_text _ (by decide)⟩
    ⟨by decide, by decide⟩

/-- Text that is not ASCII is a text: `ü` and a character outside the basic plane. -/
example : IsText [0xFC, 0xD83D, 0xDE00] := ⟨[0xFC, 0x1F600], by decide, by decide⟩

/-! ### C58: the requests of the page -/

/-- What stands in the request for a code point. -/
def sentToken (r : Rune) : JsStr := if r = 32 then [43] else if kept' r then units r else (encodeRaw r).flatMap pctUnits

theorem replace_plain {u : UInt16} (h : u ≠ 37) (s : JsStr) : replaceSpaces (u :: s) = u :: replaceSpaces s := by
  rw [replaceSpaces.eq_def]
  split
  · rename_i hh; cases hh; exact absurd rfl h
  · rename_i hh; cases hh; rfl
  · rename_i hh; cases hh

theorem replace_pct {b : UInt8} (h : b ≠ 32) (s : JsStr) : replaceSpaces (pctUnits b ++ s) = pctUnits b ++ replaceSpaces s := by
  have h1 : ∀ b : UInt8, b ≠ 32 → ¬ ((Url.hexUpper (b / 16)).toUInt16 = 50 ∧ (Url.hexUpper (b % 16)).toUInt16 = 48) :=
    Url.forall_u8 (by decide +kernel)
  have h2 : ∀ b : UInt8, (Url.hexUpper (b / 16)).toUInt16 ≠ 37 ∧ (Url.hexUpper (b % 16)).toUInt16 ≠ 37 :=
    Url.forall_u8 (by decide +kernel)
  have e : pctUnits b = [37, (Url.hexUpper (b / 16)).toUInt16, (Url.hexUpper (b % 16)).toUInt16] := rfl
  rw [e]
  simp only [List.cons_append, List.nil_append]
  rw [replaceSpaces.eq_def]
  split
  · rename_i hh
    simp only [List.cons.injEq, true_and] at hh
    exact absurd ⟨hh.1, hh.2.1⟩ (h1 b h)
  · rename_i hh
    simp only [List.cons.injEq] at hh
    rw [← hh.1, ← hh.2, replace_plain (h2 b).1, replace_plain (h2 b).2]
  · rename_i hh; cases hh

theorem replace_pcts {bs : Bytes} (h : ∀ b ∈ bs, b ≠ 32) (s : JsStr) :
    replaceSpaces (bs.flatMap pctUnits ++ s) = bs.flatMap pctUnits ++ replaceSpaces s := by
  induction bs with
  | nil => rfl
  | cons b bs ih =>
    rw [List.flatMap_cons, List.append_assoc, replace_pct (h b (by simp)), ih fun x hx => h x (by simp [hx]), List.append_assoc]

theorem encodeRaw_no32 {r : Nat} (hv : validRune r = true) (h : r ≠ 32) : ∀ b ∈ encodeRaw r, b ≠ 32 := by
  have hv := valid_cases hv
  rw [encodeRaw_nat]
  have key : ∀ {n : Nat}, n < 256 → n ≠ 32 → UInt8.ofNat n ≠ 32 := by
    intro n h1 h2 h3
    have := congrArg UInt8.toNat h3
    rw [UInt8.toNat_ofNat'] at this
    have e : (32 : UInt8).toNat = 32 := rfl
    omega
  intro b hb
  split at hb
  · rcases List.mem_singleton.1 hb with rfl; exact key (by omega) h
  split at hb
  · simp only [List.mem_cons, List.not_mem_nil, or_false] at hb
    rcases hb with rfl | rfl <;> exact key (by omega) (by omega)
  split at hb
  · simp only [List.mem_cons, List.not_mem_nil, or_false] at hb
    rcases hb with rfl | rfl | rfl <;> exact key (by omega) (by omega)
  · simp only [List.mem_cons, List.not_mem_nil, or_false] at hb
    rcases hb with rfl | rfl | rfl | rfl <;> exact key (by omega) (by omega)

/-- What reqwest makes of a code point. -/
def reqToken (r : Rune) : JsStr := if r = 32 then [43] else if uriKept r then units r else (encodeRaw r).flatMap pctUnits

theorem replace_component {rs : List Rune} (hv : ∀ r ∈ rs, validRune r = true) (s : JsStr) :
    replaceSpaces (encodeKeeping uriKept rs ++ s) = rs.flatMap reqToken ++ replaceSpaces s := by
  induction rs with
  | nil => rfl
  | cons r rs ih =>
    have e : encodeKeeping uriKept (r :: rs) =
        (if uriKept r then units r else (encodeRaw r).flatMap pctUnits) ++ encodeKeeping uriKept rs := List.flatMap_cons ..
    have ih := ih fun x hx => hv x (by simp [hx])
    rw [e, List.flatMap_cons, List.append_assoc, List.append_assoc, ← ih]
    unfold reqToken
    by_cases h32 : r = 32
    · subst h32
      rw [if_neg (by decide), if_pos rfl]
      have : (encodeRaw 32).flatMap pctUnits = [37, 50, 48] := by decide
      rw [this]
      simp only [List.cons_append, List.nil_append]
      rw [replaceSpaces]
    · rw [if_neg h32]
      by_cases hk : uriKept r = true
      · rw [if_pos hk, units_ascii (uriKept_lt hk).1, List.singleton_append, replace_plain, List.singleton_append]
        intro h
        have := congrArg UInt16.toNat h
        rw [u16_toNat (Nat.lt_trans (uriKept_lt hk).1 (by decide))] at this
        exact (uriKept_lt hk).2 this
      · rw [if_neg hk, replace_pcts (encodeRaw_no32 (hv r (by simp)) h32)]

theorem browser_reqToken (r : Rune) : browser ((reqToken r).map UInt16.toNat) = sentToken r := by
  unfold reqToken sentToken
  by_cases h32 : r = 32
  · rw [if_pos h32, if_pos h32]; decide
  · rw [if_neg h32, if_neg h32]
    by_cases hk : uriKept r = true
    · rw [if_pos hk, browser_kept hk]
    · rw [if_neg hk, browser_pcts, if_neg]
      exact fun h' => hk (kept'_of h')

theorem browser_reqTokens (rs : List Rune) : browser ((rs.flatMap reqToken).map UInt16.toNat) = rs.flatMap sentToken := by
  induction rs with
  | nil => rfl
  | cons r rs ih => rw [List.flatMap_cons, List.map_append, browser_append, browser_reqToken, ih, List.flatMap_cons]

theorem reqToken_ascii (r : Rune) : AsciiUnits (reqToken r) := by
  intro u hu
  unfold reqToken at hu
  split at hu
  · rcases List.mem_singleton.1 hu with rfl; decide
  split at hu
  · rename_i hk; exact (uriKept_plain hk u hu).1
  · obtain ⟨b, -, hb⟩ := List.mem_flatMap.1 hu
    exact (pctUnits_plain b u hb).1

/-- The bytes sent for a text. -/
def sent (rs : List Rune) : Bytes := (rs.flatMap sentToken).map fun u => u.toUInt8

theorem pctUnits_bytes (b : UInt8) : (pctUnits b).map (fun u => u.toUInt8) = Url.pct b := by
  revert b; exact Url.forall_u8 (by decide +kernel)

theorem unescape_pcts (bs : Bytes) (s : Bytes) :
    Url.queryUnescape ((bs.flatMap pctUnits).map (fun u => u.toUInt8) ++ s) = (Url.queryUnescape s).map (bs ++ ·) := by
  induction bs with
  | nil => simp
  | cons b bs ih =>
    rw [List.flatMap_cons, List.map_append, pctUnits_bytes, List.append_assoc, Url.unescape_pct, ih, Option.map_map]
    rfl

theorem kept'_byte {r : Nat} (h : kept' r = true) :
    ∃ c : UInt8, (units r).map (fun u => u.toUInt8) = [c] ∧ encodeRaw r = [c] ∧ c ≠ 37 ∧ c ≠ 43 := by
  have hr := (uriKept_lt (kept'_of h)).1
  revert h
  refine forall_lt128 (P := fun r => kept' r = true →
    ∃ c : UInt8, (units r).map (fun u => u.toUInt8) = [c] ∧ encodeRaw r = [c] ∧ c ≠ 37 ∧ c ≠ 43) ?_ hr
  intro i h
  refine ⟨UInt8.ofNat i, ?_⟩
  revert h
  revert i
  decide +kernel

theorem unescape_token (r : Rune) (s : Bytes) :
    Url.queryUnescape ((sentToken r).map (fun u => u.toUInt8) ++ s) = (Url.queryUnescape s).map (encodeRaw r ++ ·) := by
  unfold sentToken
  by_cases h32 : r = 32
  · subst h32
    rw [if_pos rfl]
    have : ([43] : JsStr).map (fun u => u.toUInt8) = [43] := by decide
    rw [this, List.singleton_append, Url.unescape_plain (by decide)]
    have : encodeRaw 32 = [32] := by decide
    rw [this]; rfl
  · rw [if_neg h32]
    by_cases hk : kept' r = true
    · obtain ⟨c, h1, h2, h3, h4⟩ := kept'_byte hk
      rw [if_pos hk, h1, List.singleton_append, Url.unescape_plain h3, if_neg h4, h2]; rfl
    · rw [if_neg hk, unescape_pcts]

theorem unescape_sent (rs : List Rune) : Url.queryUnescape (sent rs) = some (rs.flatMap encodeRaw) := by
  unfold sent
  induction rs with
  | nil => rfl
  | cons r rs ih => rw [List.flatMap_cons, List.map_append, unescape_token, ih, List.flatMap_cons]; rfl

theorem sentToken_safe (r : Rune) : ∀ c ∈ (sentToken r).map (fun u => u.toUInt8), Url.Safe c := by
  unfold sentToken
  split
  · decide
  split
  · rename_i hk
    have hr := (uriKept_lt (kept'_of hk)).1
    revert hk
    exact forall_lt128 (P := fun r => kept' r = true → ∀ c ∈ (units r).map (fun u => u.toUInt8), Url.Safe c) (by decide +kernel) hr
  · intro c hc
    rw [List.map_flatMap] at hc
    obtain ⟨b, -, hb⟩ := List.mem_flatMap.1 hc
    rw [pctUnits_bytes] at hb
    have h : ∀ b : UInt8, ∀ c ∈ Url.pct b, Url.Safe c := Url.forall_u8 (by decide +kernel)
    exact h b c hb

theorem sent_safe (rs : List Rune) : ∀ c ∈ sent rs, Url.Safe c := by
  intro c hc
  unfold sent at hc
  rw [List.map_flatMap] at hc
  obtain ⟨r, -, h⟩ := List.mem_flatMap.1 hc
  exact sentToken_safe r c h

/-- The whole query, before and after the browser. -/
def joinReq : List (List Rune × List Rune) → JsStr
  | [] => []
  | [(k, v)] => k.flatMap reqToken ++ 61 :: v.flatMap reqToken
  | (k, v) :: rest => k.flatMap reqToken ++ 61 :: (v.flatMap reqToken ++ 38 :: joinReq rest)

def joinSent : List (List Rune × List Rune) → Bytes
  | [] => []
  | [(k, v)] => sent k ++ 61 :: sent v
  | (k, v) :: rest => (sent k ++ 61 :: sent v) ++ 38 :: joinSent rest

theorem tokens_ascii (rs : List Rune) : AsciiUnits (rs.flatMap reqToken) := by
  intro u hu
  obtain ⟨r, -, h⟩ := List.mem_flatMap.1 hu
  exact reqToken_ascii r u h

theorem joinReq_ascii : ∀ ps, AsciiUnits (joinReq ps)
  | [] => by intro u hu; cases hu
  | [(k, v)] => by
    intro u hu
    simp only [joinReq, List.mem_append, List.mem_cons] at hu
    rcases hu with h | rfl | h
    · exact tokens_ascii _ u h
    · decide
    · exact tokens_ascii _ u h
  | (k, v) :: p :: rest => by
    have ih := joinReq_ascii (p :: rest)
    intro u hu
    simp only [joinReq, List.mem_append, List.mem_cons] at hu
    rcases hu with h | rfl | h | rfl | h
    · exact tokens_ascii _ u h
    · decide
    · exact tokens_ascii _ u h
    · decide
    · exact ih u h

/-- The texts of the parameters. -/
def texts (ps : List (List Rune × List Rune)) : List (JsStr × JsStr) := ps.map fun p => (p.1.flatMap units, p.2.flatMap units)

theorem queryParts_joinReq : ∀ ps : List (List Rune × List Rune),
    (∀ p ∈ ps, (∀ r ∈ p.1, validRune r = true) ∧ ∀ r ∈ p.2, validRune r = true) →
    ∃ q, queryParts (texts ps) = some q ∧ replaceSpaces q = joinReq ps
  | [], _ => ⟨[], rfl, rfl⟩
  | [(k, v)], h => by
    obtain ⟨hk, hv⟩ := h (k, v) (by simp)
    refine ⟨encodeKeeping uriKept k ++ 61 :: encodeKeeping uriKept v, ?_, ?_⟩
    · simp only [texts, List.map_cons, List.map_nil, queryParts]
      rw [encodeURIComponent_text hk, encodeURIComponent_text hv]; rfl
    · rw [replace_component hk, replace_plain (by decide)]
      have := replace_component hv []
      simp only [List.append_nil] at this
      rw [this]
      have : replaceSpaces [] = [] := by rw [replaceSpaces]
      rw [this, List.append_nil]; rfl
  | (k, v) :: p :: rest, h => by
    obtain ⟨hk, hv⟩ := h (k, v) (by simp)
    obtain ⟨q, hq, he⟩ := queryParts_joinReq (p :: rest) fun x hx => h x (List.mem_cons_of_mem _ hx)
    refine ⟨encodeKeeping uriKept k ++ 61 :: encodeKeeping uriKept v ++ 38 :: q, ?_, ?_⟩
    · simp only [texts, List.map_cons] at hq ⊢
      rw [queryParts.eq_def]
      simp only [encodeURIComponent_text hk, encodeURIComponent_text hv, hq]; rfl
    · rw [List.append_assoc, replace_component hk, List.cons_append, replace_plain (by decide), replace_component hv,
        replace_plain (by decide), he]
      rfl

theorem browser_joinReq : ∀ ps, (browser ((joinReq ps).map UInt16.toNat)).map (fun u => u.toUInt8) = joinSent ps
  | [] => rfl
  | [(k, v)] => by
    have e61 : browser ((61 : UInt16).toNat :: List.map UInt16.toNat (v.flatMap reqToken)) =
        61 :: browser (List.map UInt16.toNat (v.flatMap reqToken)) := rfl
    simp only [joinReq, List.map_append, List.map_cons]
    rw [browser_append, e61, browser_reqTokens, browser_reqTokens, List.map_append, List.map_cons]
    rfl
  | (k, v) :: p :: rest => by
    have ih := browser_joinReq (p :: rest)
    have e61 : ∀ s, browser ((61 : UInt16).toNat :: s) = 61 :: browser s := fun _ => rfl
    have e38 : ∀ s, browser ((38 : UInt16).toNat :: s) = 38 :: browser s := fun _ => rfl
    have ej : joinSent ((k, v) :: p :: rest) = (sent k ++ 61 :: sent v) ++ 38 :: joinSent (p :: rest) := rfl
    rw [ej, ← ih]
    simp only [joinReq, List.map_append, List.map_cons]
    rw [browser_append, e61, browser_append, e38, browser_reqTokens, browser_reqTokens, List.map_append, List.map_cons,
      List.map_append, List.map_cons]
    simp only [sent, List.append_assoc, List.cons_append]
    rfl

theorem sent_part (k v : List Rune) :
    Url.parsePart (sent k ++ 61 :: sent v) = some (k.flatMap encodeRaw, v.flatMap encodeRaw) := by
  unfold Url.parsePart
  rw [if_neg, Url.cut_append (fun h => (sent_safe k _ h).2.2.2.1 rfl)]
  · simp only [unescape_sent]
  · rintro (h | h)
    · rcases List.mem_append.1 h with h | h
      · exact (sent_safe k _ h).2.2.1 rfl
      · rcases List.mem_cons.1 h with h | h
        · cases h
        · exact (sent_safe v _ h).2.2.1 rfl
    · simp at h

theorem sent_noamp (k v : List Rune) : (38 : UInt8) ∉ sent k ++ 61 :: sent v := by
  intro h
  rcases List.mem_append.1 h with h | h
  · exact (sent_safe k _ h).2.1 rfl
  · rcases List.mem_cons.1 h with h | h
    · cases h
    · exact (sent_safe v _ h).2.1 rfl

theorem parse_joinSent : ∀ ps, Url.parseQuery (joinSent ps) = ps.map fun p => (p.1.flatMap encodeRaw, p.2.flatMap encodeRaw)
  | [] => by simp [joinSent, Url.parseQuery, Api.splitByte, Url.parsePart]
  | [(k, v)] => by
    simp only [joinSent, Url.parseQuery]
    rw [Url.splitByte_single (sent_noamp k v)]
    simp [sent_part]
  | (k, v) :: p :: rest => by
    have ih := parse_joinSent (p :: rest)
    unfold Url.parseQuery at ih ⊢
    rw [joinSent, Vcs.splitByte_append 38 (sent_noamp k v), List.filterMap_cons, sent_part]
    · simp only [ih, List.map_cons]
    · simp

theorem utf8_inj : ∀ {a b : List Rune}, (∀ r ∈ a, validRune r = true) → (∀ r ∈ b, validRune r = true) →
    a.flatMap encodeRaw = b.flatMap encodeRaw → a = b
  | [], [], _, _, _ => rfl
  | [], r :: b, _, hb, h => by
    obtain ⟨c, cs, he, -⟩ := encodeRaw_head (hb r (by simp))
    rw [List.flatMap_cons, he] at h; cases h
  | r :: a, [], ha, _, h => by
    obtain ⟨c, cs, he, -⟩ := encodeRaw_head (ha r (by simp))
    rw [List.flatMap_cons, he] at h; cases h
  | r :: a, r' :: b, ha, hb, h => by
    rw [List.flatMap_cons, List.flatMap_cons] at h
    have h1 := decode_encode (ha r (by simp)) (a.flatMap encodeRaw)
    have h2 := decode_encode (hb r' (by simp)) (b.flatMap encodeRaw)
    rw [h, h2] at h1
    have hr : r' = r := (Prod.mk.inj h1).1
    subst hr
    rw [utf8_inj (fun x hx => ha x (by simp [hx])) (fun x hx => hb x (by simp [hx])) (List.append_cancel_left h)]

/-- **C58**. Whatever the parameters of a request of the page are, as long as they are texts, the server
reads for every name the text the page gave it, in UTF-8, and nothing for a name the page did not give. -/
theorem page_request (data : List (JsStr × JsStr)) (hd : ∀ p ∈ data, IsText p.1 ∧ IsText p.2) :
    ∃ q, requestQuery data = some q ∧
      ∀ (name : JsStr) (name' : Bytes), SameText name name' →
        match data.lookup name with
        | some v => SameText v (Url.formValue q name')
        | none => Url.formValue q name' = [] := by
  have hps : ∃ ps : List (List Rune × List Rune), data = texts ps ∧
      ∀ p ∈ ps, (∀ r ∈ p.1, validRune r = true) ∧ ∀ r ∈ p.2, validRune r = true := by
    induction data with
    | nil => exact ⟨[], rfl, by simp⟩
    | cons d data ih =>
      obtain ⟨ps, rfl, hps⟩ := ih fun p hp => hd p (List.mem_cons_of_mem _ hp)
      obtain ⟨⟨k, hk, ek⟩, v, hv, ev⟩ := hd d (by simp)
      refine ⟨(k, v) :: ps, ?_, ?_⟩
      · simp only [texts, List.map_cons, ← ek, ← ev]
      · intro p hp
        rcases List.mem_cons.1 hp with rfl | hp
        · exact ⟨hk, hv⟩
        · exact hps p hp
  obtain ⟨ps, rfl, hv⟩ := hps
  obtain ⟨q, hq, he⟩ := queryParts_joinReq ps hv
  have hb : (normalQuery (replaceSpaces q)).map (fun u => u.toUInt8) = joinSent ps := by
    rw [he]
    unfold normalQuery
    have := codePoints_ascii (lone := some 0xFFFD) (joinReq_ascii ps) []
    simp only [List.append_nil] at this
    rw [this]
    have e : codePoints (some 0xFFFD) [] = some [] := rfl
    rw [e, Option.map_some, Option.getD_some, List.append_nil]
    exact browser_joinReq ps
  refine ⟨joinSent ps, ?_, ?_⟩
  · unfold requestQuery; rw [hq, Option.map_some, hb]
  rintro _ _ ⟨n, hn, rfl, rfl⟩
  unfold Url.formValue
  rw [parse_joinSent]
  clear hq he hb q hd
  induction ps with
  | nil => rfl
  | cons p ps ih =>
    obtain ⟨hk, hvv⟩ := hv p (by simp)
    have ih := ih fun x hx => hv x (List.mem_cons_of_mem _ hx)
    by_cases h : n = p.1
    · subst h
      simp only [texts, List.map_cons, List.lookup_cons, beq_self_eq_true, Option.getD_some]
      exact ⟨p.2, hvv, rfl, rfl⟩
    · have h1 : (n.flatMap units == p.1.flatMap units) = false := by
        rw [beq_eq_false_iff_ne]
        intro hu
        have a := codePoints_text (lone := none) hn
        rw [hu, codePoints_text hk] at a
        exact h (Option.some.inj a).symm
      have h2 : (n.flatMap encodeRaw == p.1.flatMap encodeRaw) = false := by
        rw [beq_eq_false_iff_ne]; exact fun hu => h (utf8_inj hn hk hu)
      simp only [texts, List.map_cons, List.lookup_cons, h1, h2] at ih ⊢
      exact ih

/-- A request as the page makes it. -/
example : requestQuery [(js b!"q", js b!"a b&c'"), (js b!"files", [0xFC])] = some b!"q=a+b%26c%27&files=%C3%BC" := by
  decide +kernel

example : ∀ p ∈ [(js b!"q", js b!"a b&c'"), (js b!"files", [0xFC])], IsText p.1 ∧ IsText p.2 := by
  simp only [List.mem_cons, List.not_mem_nil, or_false]
  rintro p (rfl | rfl)
  · exact ⟨ascii_text _ (by decide), ascii_text _ (by decide)⟩
  · exact ⟨ascii_text _ (by decide), [0xFC], by decide, by decide⟩

/-- A string with a lone surrogate makes no request. -/
example : (requestQuery [(js b!"q", [0xD800])]).isNone = true := by decide

end Hound.Ui
