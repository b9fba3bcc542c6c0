import Verif.Spec.Choice
import Verif.Props.Paging
import Verif.Props.UiUrl
import Verif.Props.UiSession

/-!
# C63: exactly the repositories chosen on the page are searched
-/

namespace Hound.Ui
open Spec Api

/-! ### Names in UTF-8 -/

theorem raw_shape {r : Nat} (h : r ≤ 0x10FFFF) : ∃ b t, encodeRaw r = b :: t ∧ (b.toNat < 128 ∨ 192 ≤ b.toNat) ∧
    ∀ c ∈ t, 128 ≤ c.toNat ∧ c.toNat < 192 := by
  have key : ∀ n, n < 256 → (UInt8.ofNat n).toNat = n := fun n hn => by simp; omega
  unfold encodeRaw
  split
  · rename_i h1
    delta Rune at h1
    exact ⟨_, _, rfl, .inl (by rw [key _ (by omega)]; assumption), by simp⟩
  · split
    · rename_i h1 h2
      delta Rune at h1 h2
      refine ⟨_, _, rfl, .inr (by rw [key _ (by omega)]; omega), ?_⟩
      intro c hc
      simp only [List.mem_cons, List.not_mem_nil, or_false] at hc
      subst hc
      rw [key _ (by omega)]; omega
    · split
      · rename_i h1 h2 h3
        delta Rune at h1 h2 h3
        refine ⟨_, _, rfl, .inr (by rw [key _ (by omega)]; omega), ?_⟩
        intro c hc
        simp only [List.mem_cons, List.not_mem_nil, or_false] at hc
        rcases hc with rfl | rfl <;> rw [key _ (by omega)] <;> omega
      · refine ⟨_, _, rfl, .inr (by rw [key _ (by omega)]; omega), ?_⟩
        intro c hc
        simp only [List.mem_cons, List.not_mem_nil, or_false] at hc
        rcases hc with rfl | rfl | rfl <;> rw [key _ (by omega)] <;> omega

theorem valid_le {r : Nat} (h : validRune r = true) : r ≤ 0x10FFFF := by
  simp only [validRune, Bool.or_eq_true, Bool.and_eq_true, decide_eq_true_eq] at h
  delta Rune at h
  omega

theorem raw_suffix {r s : Nat} (hr : r ≤ 0x10FFFF) (hs : s ≤ 0x10FFFF) {X : Bytes} (h : encodeRaw r <:+ X ++ encodeRaw s) :
    r = s := by
  apply encodeRaw_inj hr hs
  obtain ⟨b, t, e, hb, ht⟩ := raw_shape hr
  obtain ⟨b', t', e', hb', ht'⟩ := raw_shape hs
  have h2 : encodeRaw s <:+ X ++ encodeRaw s := List.suffix_append _ _
  rcases List.suffix_or_suffix_of_suffix h h2 with h3 | h3
  · rw [e, e', List.suffix_cons_iff] at h3
    rcases h3 with h3 | h3
    · rw [e, e', h3]
    · have := ht' b (h3.subset (by simp)); omega
  · rw [e, e', List.suffix_cons_iff] at h3
    rcases h3 with h3 | h3
    · rw [e, e', h3]
    · have := ht b' (h3.subset (by simp)); omega

theorem raw_prefix {r s : Nat} (hr : validRune r = true) (hs : validRune s = true) {X : Bytes}
    (h : encodeRaw r <+: encodeRaw s ++ X) : r = s := by
  obtain ⟨t, ht⟩ := h
  have h1 := decode_encode hr t
  have h2 := decode_encode hs X
  rw [ht, h2] at h1
  exact (Prod.mk.inj h1).1.symm

theorem raw_ascii_head {r : Nat} {b : UInt8} {t : Bytes} (h : 128 ≤ r) (hr : r ≤ 0x10FFFF) (e : encodeRaw r = b :: t) : 128 ≤ b.toNat := by
  have key : ∀ n, n < 256 → (UInt8.ofNat n).toNat = n := fun n hn => by simp; omega
  unfold encodeRaw at e
  rw [if_neg (show ¬ r < 128 by omega)] at e
  split at e
  · rename_i h1
    delta Rune at h1
    cases e
    rw [key _ (by omega)]; omega
  · split at e
    · rename_i h1 h2
      delta Rune at h1 h2
      cases e
      rw [key _ (by omega)]; omega
    · cases e
      rw [key _ (by omega)]; omega

theorem raw_comma {r : Nat} (h : validRune r = true) : (44 : UInt8) ∈ encodeRaw r → r = 44 := by
  intro hm
  rcases Nat.lt_or_ge r 128 with h1 | h1
  · rw [encodeRaw, if_pos h1] at hm
    simp only [List.mem_singleton] at hm
    have : (44 : UInt8).toNat = (UInt8.ofNat r).toNat := by rw [← hm]
    simp at this; omega
  · have h3 := valid_le h
    obtain ⟨b, t, e, hb, ht⟩ := raw_shape h3
    rw [e] at hm
    rcases List.mem_cons.1 hm with rfl | hm
    · rcases hb with hb | hb
      · exact absurd (raw_ascii_head h1 h3 e) (by decide)
      · exact absurd hb (by decide)
    · exact absurd (ht _ hm).1 (by decide)

theorem comma_onServer {n : List Rune} (hv : ∀ r ∈ n, validRune r = true) (h : 44 ∉ n) : (44 : UInt8) ∉ onServer n := by
  intro hm
  obtain ⟨r, hr, hm⟩ := List.mem_flatMap.1 hm
  exact h (raw_comma (hv r hr) hm ▸ hr)

theorem spaces_blanks : spaces = blanks.map encodeRaw := by decide +kernel

theorem blanks_valid : ∀ r ∈ blanks, validRune r = true := by decide

theorem onServer_inj {a b : List Rune} (ha : ∀ r ∈ a, validRune r = true) (hb : ∀ r ∈ b, validRune r = true)
    (h : onServer a = onServer b) : a = b := utf8_inj ha hb h

theorem onPage_inj {a b : List Rune} (ha : ∀ r ∈ a, validRune r = true) (hb : ∀ r ∈ b, validRune r = true)
    (h : onPage a = onPage b) : a = b := by
  have h1 := codePoints_text (lone := none) ha
  have h2 := codePoints_text (lone := none) hb
  unfold onPage at h
  rw [h, h2] at h1
  exact (Option.some.inj h1).symm

/-- The names every object has, on the page and on the server. -/
theorem object_name {n : List Rune} (hv : ∀ r ∈ n, validRune r = true) (h : onPage n ∈ protoNames) :
    onServer n ∈ objectNames := by
  have key : ∀ u ∈ protoNames, ∃ m : List Rune, (∀ r ∈ m, validRune r = true) ∧ u = onPage m ∧ onServer m ∈ objectNames := by
    have : ∀ u ∈ protoNames, (∀ r ∈ u.map UInt16.toNat, validRune r = true) ∧ u = onPage (u.map UInt16.toNat) ∧
        onServer (u.map UInt16.toNat) ∈ objectNames := by decide +kernel
    exact fun u hu => ⟨_, this u hu⟩
  obtain ⟨m, hm, he, ho⟩ := key _ h
  rw [onPage_inj hv hm he]
  exact ho

/-- A name that can be chosen is one the parameter can carry. -/
theorem choosable_plain {n : List Rune} (hv : ∀ r ∈ n, validRune r = true) (h : Choosable n) : PlainName (onServer n) := by
  obtain ⟨h0, h1, h2, h3, h4, -⟩ := h
  refine ⟨comma_onServer hv h2, fun e => h1 (onServer_inj hv (by decide) e), fun w hw => ?_⟩
  rw [spaces_blanks] at hw
  obtain ⟨b, hb, rfl⟩ := List.mem_map.1 hw
  constructor
  · cases n with
    | nil => exact absurd rfl h0
    | cons r rs =>
      intro hp
      unfold onServer at hp
      rw [List.flatMap_cons] at hp
      exact h3 r rfl (raw_prefix (blanks_valid b hb) (hv r (by simp)) hp ▸ hb)
  · obtain ⟨i, r, rfl⟩ : ∃ i r, n = i ++ [r] := ⟨n.dropLast, n.getLast h0, (List.dropLast_concat_getLast h0).symm⟩
    intro hp
    unfold onServer at hp
    rw [List.flatMap_append, List.flatMap_singleton] at hp
    exact h4 r (by simp) (raw_suffix (valid_le (blanks_valid b hb)) (valid_le (hv r (by simp))) hp ▸ hb)

/-! ### The list on the page -/

theorem validLoop_all {all : List JsStr} : ∀ {seen sel : List JsStr}, sel.Nodup → (∀ x ∈ sel, x ∈ all) →
    (∀ x ∈ sel, x ∉ seen) → validLoop all seen sel = sel
  | _, [], _, _, _ => rfl
  | seen, r :: rest, hn, ha, hs => by
    have hn' := List.nodup_cons.1 hn
    rw [validLoop, if_pos ⟨.inl (ha r (by simp)), hs r (by simp)⟩,
      validLoop_all hn'.2 (fun x hx => ha x (by simp [hx])) fun x hx => ?_]
    simp only [List.mem_cons, not_or]
    exact ⟨fun e => hn'.1 (e ▸ hx), hs x (by simp [hx])⟩

/-- The names joined by commas. -/
def joinRunes : List (List Rune) → List Rune
  | [] => []
  | [x] => x
  | x :: y :: r => x ++ 44 :: joinRunes (y :: r)

theorem joinRunes_page : ∀ ns, onPage (joinRunes ns) = joinUnits (ns.map onPage)
  | [] => rfl
  | [x] => rfl
  | x :: y :: r => by
    have := joinRunes_page (y :: r)
    simp only [joinRunes, List.map_cons, joinUnits] at this ⊢
    unfold onPage at this ⊢
    rw [List.flatMap_append, List.flatMap_cons, this]
    rfl

theorem joinRunes_server : ∀ ns, onServer (joinRunes ns) = joinComma (ns.map onServer)
  | [] => rfl
  | [x] => rfl
  | x :: y :: r => by
    have := joinRunes_server (y :: r)
    simp only [joinRunes, List.map_cons, joinComma] at this ⊢
    unfold onServer at this ⊢
    rw [List.flatMap_append, List.flatMap_cons, this]
    rfl

theorem joinRunes_valid : ∀ {ns : List (List Rune)}, (∀ n ∈ ns, ∀ r ∈ n, validRune r = true) →
    ∀ r ∈ joinRunes ns, validRune r = true
  | [], _ => by simp [joinRunes]
  | [x], h => by simpa [joinRunes] using h
  | x :: y :: r, h => by
    intro c hc
    simp only [joinRunes, List.mem_append, List.mem_cons] at hc
    rcases hc with hc | rfl | hc
    · exact h x (by simp) c hc
    · decide
    · exact joinRunes_valid (fun n hn => h n (List.mem_cons_of_mem _ hn)) c hc

/-! ### The list on the server -/

theorem space_no_comma : ∀ w ∈ spaces, (44 : UInt8) ∉ w := by decide +kernel

theorem prefix_join {w a s : Bytes} (hw : (44 : UInt8) ∉ w) (h : w <+: a ++ 44 :: s) : w <+: a := by
  have h2 : a ++ [44] <+: a ++ 44 :: s := by
    rw [show a ++ 44 :: s = a ++ [44] ++ s by simp]
    exact List.prefix_append _ _
  rcases List.prefix_or_prefix_of_prefix h h2 with h3 | h3
  · rcases List.prefix_concat_iff.1 h3 with h4 | h4
    · exact absurd (h4 ▸ by simp) hw
    · exact h4
  · exact absurd (h3.subset (by simp)) hw

theorem suffix_join {w a s : Bytes} (hw : (44 : UInt8) ∉ w) (h : w <:+ a ++ 44 :: s) : w <:+ s := by
  rcases List.suffix_or_suffix_of_suffix h (List.suffix_append a (44 :: s)) with h3 | h3
  · rcases List.suffix_cons_iff.1 h3 with h4 | h4
    · exact absurd (h4 ▸ by simp) hw
    · exact h4
  · exact absurd (h3.subset (by simp)) hw

theorem join_plain : ∀ {ns : List Bytes}, ns ≠ [] → (∀ n ∈ ns, PlainName n) →
    joinComma ns ≠ b!"*" ∧ ∀ w ∈ spaces, ¬ w <+: joinComma ns ∧ ¬ w <:+ joinComma ns
  | [], h, _ => absurd rfl h
  | [x], _, h => ⟨(h x (by simp)).2.1, (h x (by simp)).2.2⟩
  | x :: y :: r, _, h => by
    obtain ⟨-, ih⟩ := join_plain (ns := y :: r) (by simp) fun n hn => h n (List.mem_cons_of_mem _ hn)
    simp only [joinComma]
    refine ⟨fun e => ?_, fun w hw => ⟨fun hp => ?_, fun hp => ?_⟩⟩
    · have : (44 : UInt8) ∈ b!"*" := by rw [← e]; simp
      exact absurd this (by decide)
    · exact ((h x (by simp)).2.2 w hw).1 (prefix_join (space_no_comma w hw) hp)
    · exact (ih w hw).2 (suffix_join (space_no_comma w hw) hp)

theorem trimSpace_id {s : Bytes} (h : ∀ w ∈ spaces, ¬ w <+: s ∧ ¬ w <:+ s) : trimSpace s = s := by
  obtain ⟨l, r, hsl, hsr, he, -⟩ := trimSpace_spec s
  have el : l = [] := by
    rcases allSpace_prefix hsl with h' | ⟨w, hw, h'⟩
    · exact h'
    · refine absurd ?_ (h w hw).1
      rw [he, List.append_assoc]
      exact h'.trans (List.prefix_append _ _)
  have er : r = [] := by
    rcases allSpace_suffix hsr with h' | ⟨w, hw, h'⟩
    · exact h'
    · refine absurd ?_ (h w hw).2
      rw [he]
      exact h'.trans (List.suffix_append _ _)
  rw [el, er] at he
  simpa using he.symm

theorem repoList_joined {α : Type} {idx : List (Bytes × α)} {ns : List Bytes} (hne : ns ≠ []) (hp : ∀ n ∈ ns, PlainName n)
    (hin : ∀ n ∈ ns, n ∈ idx.map (·.1)) : parseAsRepoList (joinComma ns) idx = ns := by
  obtain ⟨h1, h2⟩ := join_plain hne hp
  unfold parseAsRepoList
  simp only [trimSpace_id h2, if_neg h1]
  rw [splitByte_join ns hne fun n hn => (hp n hn).1]
  refine List.filter_eq_self.2 fun n hn => ?_
  obtain ⟨e, he, rfl⟩ := List.mem_map.1 (hin n hn)
  clear hin hn
  induction idx with
  | nil => simp at he
  | cons d es ih =>
    obtain ⟨k, a⟩ := d
    simp only [List.lookup_cons]
    by_cases hk : e.1 = k
    · simp [hk]
    · have hb : (e.1 == k) = false := by simpa using hk
      simp only [hb]
      exact ih (by rcases List.mem_cons.1 he with rfl | he; exact absurd rfl hk; exact he)

/-! ### From the page to the server -/

/-- **C63**, full statement. The repositories of the server are the ones listed on the page, the user chooses some of them
(`chosen`) and searches; the parameters are texts. -/
def ChoiceFull : Prop :=
  ∀ (names chosen : List (List Rune)) (b : Bar) (α : Type) (idx : List (Bytes × α)),
    Names names → chosen.Sublist names → (idx.map (·.1)).Perm (names.map onServer) →
    IsText (trim b.q) → IsText (trim b.files) → IsText (trim b.excludeFiles) →
    b.repos = reposParam (names.map onPage) (chosen.map onPage) →
    ∃ query, requestQuery (searchData (getParams b)) = some query ∧
      SearchesChosen names chosen (parseAsRepoList (Url.formValue query b!"repos") idx)

theorem sameText_unique {s : JsStr} {b b' : Bytes} (h : SameText s b) (h' : SameText s b') : b = b' := by
  obtain ⟨rs, hv, e1, e2⟩ := h
  obtain ⟨rs', hv', e1', e2'⟩ := h'
  have : rs = rs' := onPage_inj hv hv' (e1.symm.trans e1')
  rw [e2, e2', this]

theorem boolParam_text (b : Bool) : IsText (boolParam b) := by
  cases b <;> exact ascii_text _ (by decide)

theorem nodup_onServer {names : List (List Rune)} (h : Names names) : (names.map onServer).Nodup := by
  have hv := h.2
  have hn := h.1
  clear h
  induction names with
  | nil => simp
  | cons n ns ih =>
    have hn' := List.nodup_cons.1 hn
    simp only [List.map_cons, List.nodup_cons, List.mem_map, not_exists, not_and]
    refine ⟨fun m hm e => hn'.1 ?_, ih (fun m hm => hv m (by simp [hm])) hn'.2⟩
    rw [← onServer_inj (hv m (by simp [hm])) (hv n (by simp)) e]
    exact hm

theorem nodup_onPage {names : List (List Rune)} (h : Names names) : (names.map onPage).Nodup := by
  have hv := h.2
  have hn := h.1
  clear h
  induction names with
  | nil => simp
  | cons n ns ih =>
    have hn' := List.nodup_cons.1 hn
    simp only [List.map_cons, List.nodup_cons, List.mem_map, not_exists, not_and]
    refine ⟨fun m hm e => hn'.1 ?_, ih (fun m hm => hv m (by simp [hm])) hn'.2⟩
    rw [← onPage_inj (hv m (by simp [hm])) (hv n (by simp)) e]
    exact hm

/-- The parameter arrives. -/
theorem repos_arrive {f : Form} (h1 : IsText f.q) (h2 : IsText f.files) (h3 : IsText f.excludeFiles) (h4 : IsText f.i)
    (h5 : IsText f.literal) {rs : List Rune} (hv : ∀ r ∈ rs, validRune r = true)
    (hr : (if f.repos = [] then js b!"*" else f.repos) = onPage rs) :
    ∃ query, requestQuery (searchData f) = some query ∧ Url.formValue query b!"repos" = onServer rs := by
  have ht : IsText (if f.repos = [] then js b!"*" else f.repos) := ⟨rs, hv, hr⟩
  obtain ⟨query, hq, hl⟩ := page_request (searchData f) (by
    intro p hp
    simp only [searchData, List.mem_cons, List.not_mem_nil, or_false] at hp
    rcases hp with rfl | rfl | rfl | rfl | rfl | rfl | rfl | rfl
    · exact ⟨ascii_text _ (by decide), ascii_text _ (by decide)⟩
    · exact ⟨ascii_text _ (by decide), ascii_text _ (by decide)⟩
    · exact ⟨ascii_text _ (by decide), h1⟩
    · exact ⟨ascii_text _ (by decide), h2⟩
    · exact ⟨ascii_text _ (by decide), h3⟩
    · exact ⟨ascii_text _ (by decide), ht⟩
    · exact ⟨ascii_text _ (by decide), h4⟩
    · exact ⟨ascii_text _ (by decide), h5⟩)
  refine ⟨query, hq, ?_⟩
  have := hl (js b!"repos") b!"repos" ⟨[114, 101, 112, 111, 115], by decide, by decide, by decide⟩
  have e : (searchData f).lookup (js b!"repos") = some (if f.repos = [] then js b!"*" else f.repos) := by
    simp only [searchData, List.lookup_cons]
    have n1 : (js b!"repos" == js b!"stats") = false := by decide
    have n2 : (js b!"repos" == js b!"rng") = false := by decide
    have n3 : (js b!"repos" == js b!"q") = false := by decide
    have n4 : (js b!"repos" == js b!"files") = false := by decide
    have n5 : (js b!"repos" == js b!"excludeFiles") = false := by decide
    simp only [n1, n2, n3, n4, n5, beq_self_eq_true]
  rw [e] at this
  exact sameText_unique this ⟨rs, hv, hr, rfl⟩

/-- **C63**, partial: whatever the user chooses, if every chosen repository has a name that can be chosen (`Choosable`).
For other names the full statement is false (`not_choiceFull`). -/
theorem choice_partial {names chosen : List (List Rune)} {b : Bar} {α : Type} {idx : List (Bytes × α)}
    (hn : Names names) (hc : chosen.Sublist names) (hi : (idx.map (·.1)).Perm (names.map onServer))
    (h1 : IsText (trim b.q)) (h2 : IsText (trim b.files)) (h3 : IsText (trim b.excludeFiles))
    (hb : b.repos = reposParam (names.map onPage) (chosen.map onPage)) (hch : ∀ n ∈ chosen, Choosable n) :
    ∃ query, requestQuery (searchData (getParams b)) = some query ∧
      SearchesChosen names chosen (parseAsRepoList (Url.formValue query b!"repos") idx) := by
  have hcn : Names chosen := ⟨hc.nodup hn.1, fun n h => hn.2 n (hc.subset h)⟩
  have hv : validRepos (names.map onPage) (chosen.map onPage) = chosen.map onPage := by
    refine validLoop_all (nodup_onPage hcn) ?_ ?_
    · intro x hx
      exact (hc.map onPage).subset hx
    · intro x hx
      obtain ⟨n, hn', rfl⟩ := List.mem_map.1 hx
      exact fun h => (hch n hn').2.2.2.2.2 (object_name (hcn.2 n hn') h)
  have hall : ∀ query, Url.formValue query b!"repos" = b!"*" → (chosen = [] ∨ chosen = names) →
      SearchesChosen names chosen (parseAsRepoList (Url.formValue query b!"repos") idx) := by
    intro query hq hcc
    have e : parseAsRepoList (Url.formValue query b!"repos") idx = idx.map (·.1) := by
      rw [hq]
      unfold parseAsRepoList
      simp only [show trimSpace b!"*" = b!"*" by decide +kernel, if_true]
    rw [e]
    refine ⟨hi.nodup_iff.2 (nodup_onServer hn), fun x => ?_⟩
    rw [hi.mem_iff, List.mem_map]
    constructor
    · rintro ⟨n, h, rfl⟩
      refine ⟨n, h, rfl, ?_⟩
      rcases hcc with rfl | rfl
      · exact .inl rfl
      · exact .inr h
    · rintro ⟨n, h, rfl, -⟩
      exact ⟨n, h, rfl⟩
  have hform : (getParams b).repos = b.repos := rfl
  by_cases hcc : chosen = [] ∨ chosen = names
  · have hr : b.repos = [] := by
      rw [hb]
      unfold reposParam
      simp only [hv]
      rcases hcc with rfl | rfl
      · simp [joinUnits]
      · simp [joinUnits]
    obtain ⟨query, hq, hf⟩ := repos_arrive (f := getParams b) h1 h2 h3 (boolParam_text _) (boolParam_text _) (rs := [42])
      (by decide) (by rw [hform, hr]; decide)
    exact ⟨query, hq, hall query hf hcc⟩
  · have hlen : (chosen.map onPage).length ≠ (names.map onPage).length := by
      simp only [List.length_map]
      intro e
      exact hcc (.inr (hc.eq_of_length e))
    have hr : b.repos = onPage (joinRunes chosen) := by
      rw [hb]
      unfold reposParam
      simp only [hv, if_neg hlen]
      exact (joinRunes_page chosen).symm
    have hne : chosen ≠ [] := fun e => hcc (.inl e)
    have hr0 : b.repos ≠ [] := by
      intro e
      rw [hr] at e
      have e2 : joinRunes chosen = [] := onPage_inj (joinRunes_valid hcn.2) (by simp) e
      match chosen, hne, hch, e2 with
      | [x], _, hch, e2 => exact (hch x (by simp)).1 e2
      | x :: y :: r, _, _, e2 => simp [joinRunes] at e2
    obtain ⟨query, hq, hf⟩ := repos_arrive (f := getParams b) h1 h2 h3 (boolParam_text _) (boolParam_text _)
      (rs := joinRunes chosen) (joinRunes_valid hcn.2) (by rw [hform, if_neg hr0, hr])
    refine ⟨query, hq, ?_⟩
    rw [hf, joinRunes_server, repoList_joined (by simpa using hne)]
    · refine ⟨nodup_onServer hcn, fun x => ?_⟩
      rw [List.mem_map]
      constructor
      · rintro ⟨n, h, rfl⟩
        exact ⟨n, hc.subset h, rfl, .inr h⟩
      · rintro ⟨n, h, rfl, h' | h'⟩
        · exact absurd h' hne
        · exact ⟨n, h', rfl⟩
    · intro x hx
      obtain ⟨n, h, rfl⟩ := List.mem_map.1 hx
      exact choosable_plain (hcn.2 n h) (hch n h)
    · intro x hx
      obtain ⟨n, h, rfl⟩ := List.mem_map.1 hx
      rw [hi.mem_iff]
      exact List.mem_map.2 ⟨n, hc.subset h, rfl⟩

/-- The name of a repository given in ASCII. -/
def name (b : Bytes) : List Rune := b.map UInt8.toNat

/-- Three repositories, of which the first and the last are chosen. -/
example : ∃ query, requestQuery (searchData (getParams ⟨js b!"x", [], [], true, false, js b!"a/b,d"⟩)) = some query ∧
    SearchesChosen [name b!"a/b", name b!"c", name b!"d"] [name b!"a/b", name b!"d"]
      (parseAsRepoList (Url.formValue query b!"repos") [(b!"d", 1), (b!"a/b", 2), (b!"c", 3)]) := by
  refine choice_partial ?_ ?_ ?_ ?_ ?_ ?_ ?_ ?_
  · unfold Names; decide
  · decide
  · decide
  · exact ascii_text b!"x" (by decide)
  · exact ascii_text b!"" (by decide)
  · exact ascii_text b!"" (by decide)
  · decide
  · unfold Choosable
    decide

/-- A repository of the given name cannot be chosen: a search in it alone searches the list `searched`. -/
def SearchedFor (b : Bytes) (searched : List Bytes) : Prop :=
  ∃ query, requestQuery (searchData (getParams ⟨js b!"x", [], [], false, false,
      reposParam [js b, js b!"other"] [js b]⟩)) = some query ∧
    parseAsRepoList (Url.formValue query b!"repos") [(b, 1), (b!"other", 2)] = searched

theorem searchedFor {b : Bytes} {rs : List Rune} (hv : ∀ r ∈ rs, validRune r = true)
    (h : (let p := reposParam [js b, js b!"other"] [js b]; if p = [] then js b!"*" else p) = onPage rs) {searched : List Bytes}
    (hs : parseAsRepoList (onServer rs) [(b, 1), (b!"other", 2)] = searched) : SearchedFor b searched := by
  obtain ⟨query, hq, hf⟩ := repos_arrive (f := getParams ⟨js b!"x", [], [], false, false, reposParam [js b, js b!"other"] [js b]⟩)
    (ascii_text b!"x" (by decide)) (ascii_text b!"" (by decide)) (ascii_text b!"" (by decide)) (boolParam_text false)
    (boolParam_text false) hv h
  exact ⟨query, hq, by rw [hf]; exact hs⟩

/-- The repository `constructor` cannot be chosen: all are searched. -/
theorem constructor_chosen : SearchedFor b!"constructor" [b!"constructor", b!"other"] :=
  searchedFor (rs := [42]) (by decide) (by decide) (by decide +kernel)

/-- The repository `a,b` cannot be chosen: none is searched. -/
theorem comma_chosen : SearchedFor b!"a,b" [] :=
  searchedFor (rs := name b!"a,b") (by decide) (by decide) (by decide +kernel)

/-- The repository `*` cannot be chosen: all are searched. -/
theorem star_chosen : SearchedFor b!"*" [b!"*", b!"other"] :=
  searchedFor (rs := name b!"*") (by decide) (by decide) (by decide +kernel)

/-- The repository with the empty name cannot be chosen: all are searched. -/
theorem empty_chosen : SearchedFor b!"" [b!"", b!"other"] :=
  searchedFor (rs := [42]) (by decide) (by decide) (by decide +kernel)

/-- A repository whose name begins with a blank cannot be chosen: none is searched. -/
theorem blank_chosen : SearchedFor b!" r" [] :=
  searchedFor (rs := name b!" r") (by decide) (by decide) (by decide +kernel)

theorem not_choiceFull : ¬ ChoiceFull := by
  intro h
  obtain ⟨query, hq, hs⟩ := h [name b!"constructor", name b!"other"] [name b!"constructor"]
    ⟨js b!"x", [], [], false, false, reposParam [js b!"constructor", js b!"other"] [js b!"constructor"]⟩ Nat
    [(b!"constructor", 1), (b!"other", 2)] (by unfold Names; decide) (by decide) (by decide)
    (ascii_text b!"x" (by decide)) (ascii_text b!"" (by decide)) (ascii_text b!"" (by decide)) (by decide)
  obtain ⟨query', hq', hs'⟩ := constructor_chosen
  obtain rfl : query = query' := Option.some.inj (hq.symm.trans hq')
  rw [hs'] at hs
  obtain ⟨n, hn, e, h2⟩ := (hs.2 b!"other").1 (by decide)
  have e1 : b!"other" = onServer (name b!"other") := by decide
  have hv : ∀ r ∈ n, validRune r = true := by
    simp only [List.mem_cons, List.not_mem_nil, or_false] at hn
    rcases hn with rfl | rfl <;> decide
  have : n = name b!"other" := (onServer_inj (by decide) hv (e1.symm.trans e)).symm
  subst this
  rcases h2 with h2 | h2
  · exact absurd h2 (by decide)
  · exact absurd h2 (by decide)

end Hound.Ui
