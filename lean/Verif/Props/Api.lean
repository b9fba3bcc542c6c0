import Verif.Proofs.Api

/-!
# C29, C30, C31, C32: requests to the API
-/

namespace Hound.Api
open Spec

/-! ## C29 -/

section C29
variable {search : Bytes → Except SearchErr SearchResponse → Prop} {repos : List Bytes}

/-- **C29**, success. Whatever the order in which the searches finish, a successful combined response
means that no repository failed, and it contains only answers that repositories gave: exactly one for
every listed repository with a match, none for a repository without one. -/
theorem searchAll_ok {out : AllFound} (h : SearchAllRun search repos (.ok out)) :
    (∀ n r, out.results n = some r → n ∈ repos ∧ search n (.ok r) ∧ r.matches_ ≠ []) ∧
    (∀ n, out.results n = none →
      n ∉ repos ∨ ∃ r, search n (.ok r) ∧ r.matches_ = []) := by
  obtain ⟨sent, arrival, hs, hsearch, hp, ho⟩ := h
  obtain ⟨h1, -, h3, h4⟩ := collect_ok ho.symm
  constructor
  · intro n r hn
    rcases h3 n r hn with ⟨hm, hr⟩ | hn
    · have hm' := hp.mem_iff.1 hm
      refine ⟨?_, hsearch _ hm', hr⟩
      rw [← hs]
      exact List.mem_map.2 ⟨_, hm', rfl⟩
    · simp at hn
  · intro n hn
    obtain ⟨-, h5⟩ := (h4 n).1 hn
    by_cases hin : n ∈ repos
    · right
      rw [← hs] at hin
      obtain ⟨a, ha, rfl⟩ := List.mem_map.1 hin
      obtain ⟨r, hr⟩ := h1 a (hp.mem_iff.2 ha)
      refine ⟨r, hr ▸ hsearch a ha, h5 r ?_⟩
      rw [← hr]
      exact hp.mem_iff.2 ha
    · exact .inl hin

/-- **C29**, failure. If the combined response is an error, it is an error that one of the listed
repositories reported. -/
theorem searchAll_error {e : SearchErr} (h : SearchAllRun search repos (.error e)) :
    ∃ n ∈ repos, search n (.error e) := by
  obtain ⟨sent, arrival, hs, hsearch, hp, ho⟩ := h
  obtain ⟨n, hn⟩ := collect_error ho.symm
  have hm := hp.mem_iff.1 hn
  exact ⟨n, hs ▸ List.mem_map.2 ⟨_, hm, rfl⟩, hsearch _ hm⟩

/-- **C29**, independence of the order. If every repository has one answer (no index is replaced
during the request), then in any two executions either both fail, or both succeed with the same
results and the same number of opened files. -/
theorem searchAll_order {answer : Bytes → Except SearchErr SearchResponse}
    {out out' : Except SearchErr AllFound}
    (h : SearchAllRun (fun n r => r = answer n) repos out)
    (h' : SearchAllRun (fun n r => r = answer n) repos out') :
    (out = out') ∨ (∃ e e', out = .error e ∧ out' = .error e') := by
  obtain ⟨sent, arrival, hs, hsearch, hp, ho⟩ := h
  obtain ⟨sent', arrival', hs', hsearch', hp', ho'⟩ := h'
  have hsent : sent = repos.map fun n => (n, answer n) := by
    rw [← hs, List.map_map]
    conv => lhs; rw [← List.map_id sent]
    refine List.map_congr_left fun a ha => ?_
    have := hsearch a ha
    simp only [id, Function.comp, ← this]
  have hsent' : sent' = repos.map fun n => (n, answer n) := by
    rw [← hs', List.map_map]
    conv => lhs; rw [← List.map_id sent']
    refine List.map_congr_left fun a ha => ?_
    have := hsearch' a ha
    simp only [id, Function.comp, ← this]
  have hperm : arrival.Perm arrival' := by
    rw [hsent] at hp; rw [hsent'] at hp'
    exact hp.trans hp'.symm
  have mixed : ∀ {a b : List Answer} {o : AllFound} {e : SearchErr}, a.Perm b →
      collect a ⟨fun _ => none, 0⟩ = .ok o → collect b ⟨fun _ => none, 0⟩ = .error e → False := by
    intro a b o e hab ha hb
    obtain ⟨n, hn⟩ := collect_error hb
    obtain ⟨r, hr⟩ := (collect_ok ha).1 _ (hab.mem_iff.2 hn)
    simp at hr
  cases hc : collect arrival ⟨fun _ => none, 0⟩ with
  | error e =>
    cases hc' : collect arrival' ⟨fun _ => none, 0⟩ with
    | error e' => exact .inr ⟨e, e', by rw [ho, hc], by rw [ho', hc']⟩
    | ok o' => exact absurd (mixed hperm.symm hc' hc) id
  | ok o =>
    cases hc' : collect arrival' ⟨fun _ => none, 0⟩ with
    | error e' => exact absurd (mixed hperm hc hc') id
    | ok o' =>
      left
      rw [ho, ho', hc, hc']
      obtain ⟨-, f1, g1, k1⟩ := collect_ok hc
      obtain ⟨-, f2, g2, k2⟩ := collect_ok hc'
      have hans : ∀ n r, (n, Except.ok r) ∈ arrival → answer n = .ok r := by
        intro n r hm
        have := hsearch _ (hp.mem_iff.1 hm)
        exact this.symm
      congr 1
      have hf : o.filesOpened = o'.filesOpened := by
        rw [f1, f2, openedSum_perm hperm]
      have hr : o.results = o'.results := by
        funext n
        cases hn : o.results n with
        | none =>
          symm
          obtain ⟨_, h2⟩ := (k1 n).1 hn
          exact (k2 n).2 ⟨rfl, fun r hm => h2 r (hperm.mem_iff.2 hm)⟩
        | some r =>
          rcases g1 n r hn with ⟨hm, hne⟩ | hx
          · cases hn' : o'.results n with
            | none =>
              obtain ⟨_, h2⟩ := (k2 n).1 hn'
              exact absurd (h2 r (hperm.mem_iff.1 hm)) hne
            | some r' =>
              rcases g2 n r' hn' with ⟨hm', -⟩ | hx
              · have e1 := hans n r hm
                have e2 := hans n r' (hperm.mem_iff.2 hm')
                rw [e1] at e2
                rw [Except.ok.inj e2]
              · simp at hx
          · simp at hx
      cases o; cases o'
      simp only at hf hr
      rw [hf, hr]

/-- **C29**. The combined response succeeds exactly if no listed repository fails. -/
theorem searchAll_fails_iff {answer : Bytes → Except SearchErr SearchResponse}
    {out : Except SearchErr AllFound}
    (h : SearchAllRun (fun n r => r = answer n) repos out) :
    (∃ o, out = .ok o) ↔ ∀ n ∈ repos, ∃ r, answer n = .ok r := by
  constructor
  · rintro ⟨o, rfl⟩ n hn
    obtain ⟨sent, arrival, hs, hsearch, hp, ho⟩ := h
    rw [← hs] at hn
    obtain ⟨a, ha, rfl⟩ := List.mem_map.1 hn
    obtain ⟨r, hr⟩ := (collect_ok ho.symm).1 a (hp.mem_iff.2 ha)
    exact ⟨r, by rw [← hsearch a ha, hr]⟩
  · intro hall
    cases out with
    | ok o => exact ⟨o, rfl⟩
    | error e =>
      obtain ⟨n, hn, he⟩ := searchAll_error h
      obtain ⟨r, hr⟩ := hall n hn
      rw [hr] at he
      simp at he

/-- Three repositories, one without a match; two different orders; same response. -/
example :
    let fm : FileMatch := ⟨b!"a.go", [⟨b!"x", 1, [], []⟩], false⟩
    let r1 : SearchResponse := ⟨[fm], 1, 4, b!"r1"⟩
    let r2 : SearchResponse := ⟨[], 0, 7, b!"r2"⟩
    let r3 : SearchResponse := ⟨[fm, fm], 2, 5, b!"r3"⟩
    let answer : Bytes → Except SearchErr SearchResponse := fun n =>
      if n = b!"one" then .ok r1 else if n = b!"two" then .ok r2 else .ok r3
    ∃ out, SearchAllRun (fun n r => r = answer n) [b!"one", b!"two", b!"three"] (.ok out) ∧
      out.results b!"one" = some r1 ∧ out.results b!"two" = none ∧ out.results b!"three" = some r3 ∧
      out.filesOpened = 9 := by
  intro fm r1 r2 r3 answer
  refine ⟨_, ⟨[(b!"one", .ok r1), (b!"two", .ok r2), (b!"three", .ok r3)],
    [(b!"three", .ok r3), (b!"one", .ok r1), (b!"two", .ok r2)], rfl, ?_, ?_, rfl⟩, ?_, ?_, ?_, ?_⟩
  · intro a ha
    simp only [List.mem_cons, List.not_mem_nil, or_false] at ha
    rcases ha with rfl | rfl | rfl <;> rfl
  · exact (List.perm_middle (l₁ := [((b!"one" : Bytes), Except.ok r1), (b!"two", .ok r2)]) (l₂ := [])).symm
  all_goals rfl

end C29

/-! ## C30 -/

theorem parseAsUintValue_le {sv : Bytes} {min max dflt : Nat} (h : max ≠ 0) (hd : dflt ≤ max)
    (hm : min ≤ max) : parseAsUintValue sv min max dflt ≤ max := by
  unfold parseAsUintValue
  split
  · exact hd
  · split
    · exact Nat.le_refl _
    · split <;> omega

theorem parseAsIntValue_range {sv : Bytes} {lo hi dflt : Int} (h : lo ≠ 0) (h' : hi ≠ 0) (hm : lo ≤ hi) :
    parseAsIntValue sv lo hi dflt = dflt ∨
      (lo ≤ parseAsIntValue sv lo hi dflt ∧ parseAsIntValue sv lo hi dflt ≤ hi) := by
  unfold parseAsIntValue
  split
  · exact .inl rfl
  · right
    split
    · omega
    · split <;> omega

theorem parseAsUintValue_some {sv : Bytes} {max dflt n : Nat} (h : max ≠ 0) (hn : parseUint 54 sv = some n) :
    parseAsUintValue sv 0 max dflt = Min.min n max := by
  unfold parseAsUintValue
  rw [hn]
  simp only
  split
  · omega
  · split <;> omega

theorem parseAsIntValue_some {sv : Bytes} {lo hi dflt n : Int} (h : lo ≠ 0) (h' : hi ≠ 0) (hm : lo ≤ hi)
    (hn : parseInt sv = some n) : parseAsIntValue sv lo hi dflt = Max.max lo (Min.min n hi) := by
  unfold parseAsIntValue
  rw [hn]
  simp only
  split
  · omega
  · split <;> omega

/-- **C30**. Whatever the query string contains, a search request asks for at most 20 lines of context,
its match cap is the configured default or lies between -1 and 100000, and offset and limit are 64 bit
integers (parsing them never fails). -/
theorem params_bounded (form : Bytes → Bytes) (dflt : Int) :
    (searchOptions form dflt).linesOfContext ≤ 20 ∧
    ((searchOptions form dflt).maxResults = dflt ∨
      (-1 ≤ (searchOptions form dflt).maxResults ∧ (searchOptions form dflt).maxResults ≤ 100000)) ∧
    (-(2 ^ 63) ≤ (searchOptions form dflt).offset ∧ (searchOptions form dflt).offset < 2 ^ 63) ∧
    (-(2 ^ 63) ≤ (searchOptions form dflt).limit ∧ (searchOptions form dflt).limit < 2 ^ 63) := by
  have hr : ∀ v, -(2 ^ 63) ≤ parseRangeInt v ∧ parseRangeInt v < 2 ^ 63 := by
    intro v
    unfold parseRangeInt
    split
    · omega
    · split
      · omega
      · rename_i vi hv
        have := (parseUint_iff.1 hv).2
        unfold toInt64
        split <;> omega
  refine ⟨?_, ?_, ?_, ?_⟩
  · exact parseAsUintValue_le (by decide) (by decide) (by decide)
  · exact parseAsIntValue_range (by decide) (by decide) (by decide)
  · simp only [searchOptions, parseRangeValue]
    split
    · simp
    · exact hr _
  · simp only [searchOptions, parseRangeValue]
    split
    · simp
    · exact hr _

/-- **C30**, the values meant are used: a numeral below 2^54 for the context is used up to 20, anything
else gives 2; a signed numeral of 64 bits for the limit is used within -1 and 100000, anything else
gives the configured default. -/
theorem params_exact (form : Bytes → Bytes) (dflt : Int) :
    (∀ n, IsNumeral (form b!"ctx") n → n < 2 ^ 54 →
      (searchOptions form dflt).linesOfContext = min n 20) ∧
    ((∀ n, IsNumeral (form b!"ctx") n → 2 ^ 54 ≤ n) → (searchOptions form dflt).linesOfContext = 2) ∧
    (∀ n, IsSigned (form b!"limit") n → -(2 ^ 63) ≤ n → n < 2 ^ 63 →
      (searchOptions form dflt).maxResults = max (-1) (min n 100000)) ∧
    ((∀ n, IsSigned (form b!"limit") n → n < -(2 ^ 63) ∨ 2 ^ 63 ≤ n) →
      (searchOptions form dflt).maxResults = dflt) := by
  refine ⟨?_, ?_, ?_, ?_⟩
  · intro n hn hlt
    exact parseAsUintValue_some (by decide) (parseUint_iff.2 ⟨hn, hlt⟩)
  · intro h
    simp only [searchOptions, parseAsUintValue, parseUint_none.2 h, defaultLinesOfContext]
  · intro n hn hlo hhi
    exact parseAsIntValue_some (by decide) (by decide) (by decide) (parseInt_iff.2 ⟨hn, hlo, hhi⟩)
  · intro h
    have : parseInt (form b!"limit") = none := by
      cases hp : parseInt (form b!"limit") with
      | none => rfl
      | some v =>
        obtain ⟨a, b, c⟩ := parseInt_iff.1 hp
        rcases h v a with h | h <;> omega
    simp only [searchOptions, parseAsIntValue, this]

theorem isWord_iff {w : Bytes} (hw : ∀ d ∈ w, ¬ (65 ≤ d.toNat ∧ d.toNat ≤ 90)) : ∀ {s : Bytes},
    IsWord s w ↔ s.map lowerByte = w := by
  have key : ∀ c d : UInt8, ¬ (65 ≤ d.toNat ∧ d.toNat ≤ 90) →
      ((c = d ∨ (65 ≤ c.toNat ∧ c.toNat ≤ 90 ∧ d.toNat = c.toNat + 32)) ↔ lowerByte c = d) := by
    intro c d hd
    unfold lowerByte
    by_cases hc : 65 ≤ c ∧ c ≤ 90
    · have hc' : 65 ≤ c.toNat ∧ c.toNat ≤ 90 := by
        rw [UInt8.le_iff_toNat_le, UInt8.le_iff_toNat_le] at hc; exact hc
      rw [if_pos hc]
      have e : (c + 32).toNat = c.toNat + 32 := by
        rw [UInt8.toNat_add]; have : (32 : UInt8).toNat = 32 := rfl; omega
      constructor
      · rintro (rfl | h)
        · exact absurd hc' hd
        · apply UInt8.toNat_inj.1; omega
      · rintro rfl; exact .inr ⟨hc'.1, hc'.2, e⟩
    · have hc' : ¬ (65 ≤ c.toNat ∧ c.toNat ≤ 90) := by
        rw [UInt8.le_iff_toNat_le, UInt8.le_iff_toNat_le] at hc; exact hc
      rw [if_neg hc]
      exact ⟨fun h => h.elim id fun h => absurd ⟨h.1, h.2.1⟩ hc', .inl⟩
  induction w with
  | nil => intro s; cases s <;> simp [IsWord]
  | cons d w ih =>
    intro s
    cases s with
    | nil => simp [IsWord]
    | cons c s =>
      simp only [IsWord, List.map_cons, List.cons.injEq]
      rw [key c d (hw d (by simp)), ih fun x hx => hw x (List.mem_cons_of_mem _ hx)]

theorem parseAsBool_iff (s : Bytes) : parseAsBool s = true ↔ IsYes s := by
  unfold parseAsBool IsYes
  rw [isWord_iff (by decide), isWord_iff (by decide), isWord_iff (by decide)]
  simp only [Bool.or_eq_true, beq_iff_eq, or_assoc]

/-- **C30**, the other parameters: the patterns for files are taken as they are, each from its own parameter,
and the flags are set exactly by `true`, `1` and `fosho`. -/
theorem params_flags (form : Bytes → Bytes) (dflt : Int) :
    (searchOptions form dflt).fileRegexp = form b!"files" ∧
    (searchOptions form dflt).excludeFileRegexp = form b!"excludeFiles" ∧
    ((searchOptions form dflt).ignoreCase = true ↔ IsYes (form b!"i")) ∧
    ((searchOptions form dflt).literalSearch = true ↔ IsYes (form b!"literal")) :=
  ⟨rfl, rfl, parseAsBool_iff _, parseAsBool_iff _⟩

example : IsYes b!"True" ∧ IsYes b!"fosho" ∧ ¬ IsYes b!"yes" := by
  refine ⟨(parseAsBool_iff _).1 (by decide), (parseAsBool_iff _).1 (by decide), ?_⟩
  rw [← parseAsBool_iff]; decide

/-- The number a part of the range parameter stands for. -/
def RangePart (s : Bytes) (v : Int) : Prop :=
  (∀ n, IsNumeral s n → n < 2 ^ 63 → v = n) ∧
  (∀ n, IsNumeral s n → 2 ^ 63 ≤ n → n < 2 ^ 64 → v < 0) ∧
  ((∀ n, IsNumeral s n → 2 ^ 64 ≤ n) → v = 0)

theorem parseRangeInt_part (s : Bytes) : RangePart s (parseRangeInt s) := by
  refine ⟨?_, ?_, ?_⟩
  · intro n hn hlt
    unfold parseRangeInt
    rw [if_neg hn.1, parseUint_iff.2 ⟨hn, by omega⟩]
    simp only [toInt64]
    rw [if_pos hlt]
  · intro n hn h1 h2
    unfold parseRangeInt
    rw [if_neg hn.1, parseUint_iff.2 ⟨hn, h2⟩]
    simp only [toInt64]
    rw [if_neg (by omega)]
    omega
  · intro h
    unfold parseRangeInt
    split
    · rfl
    · rw [parseUint_none.2 h]

theorem parseRangeValue_exact (rv : Bytes) :
    ((58 : UInt8) ∉ rv → parseRangeValue rv = (0, 0)) ∧
    (∀ l r, rv = l ++ 58 :: r → (58 : UInt8) ∉ l →
      RangePart l (parseRangeValue rv).1 ∧ RangePart r (parseRangeValue rv).2) := by
  constructor
  · intro h
    unfold parseRangeValue
    cases hi : indexByte rv 58 with
    | none => rfl
    | some i =>
      obtain ⟨h1, -⟩ := (indexByte_split (b := rv) (c := 58)).2 i hi
      exact absurd (by rw [h1]; simp) h
  · rintro l r rfl hl
    unfold parseRangeValue
    rw [indexByte_append hl]
    have e : (l ++ 58 :: r).drop (l.length + 1) = r := by
      have : l ++ 58 :: r = (l ++ [58]) ++ r := by simp
      rw [this, List.drop_left' (by simp)]
    simp only [List.take_left, e]
    exact ⟨parseRangeInt_part l, parseRangeInt_part r⟩

/-- **C30**, the range. Without a colon the range is "everything" (0 and 0). Otherwise offset and limit
are the numbers before and after the first colon, zero where there is no number of 64 bits. A number
of 2^63 or more becomes negative, which a search treats like zero (`search_paging`). -/
theorem range_exact (form : Bytes → Bytes) (dflt : Int) :
    ((58 : UInt8) ∉ form b!"rng" → (searchOptions form dflt).offset = 0 ∧ (searchOptions form dflt).limit = 0) ∧
    (∀ l r, form b!"rng" = l ++ 58 :: r → (58 : UInt8) ∉ l →
      RangePart l (searchOptions form dflt).offset ∧ RangePart r (searchOptions form dflt).limit) := by
  obtain ⟨h1, h2⟩ := parseRangeValue_exact (form b!"rng")
  refine ⟨fun h => ?_, h2⟩
  have e := h1 h
  exact ⟨congrArg Prod.fst e, congrArg Prod.snd e⟩

/-- A request with `ctx=35`, `limit=-7` and `rng=10:20`. -/
example :
    let form : Bytes → Bytes := fun k =>
      if k = b!"ctx" then b!"35" else if k = b!"limit" then b!"-7" else if k = b!"rng" then b!"10:20" else []
    (searchOptions form 5000).linesOfContext = 20 ∧ (searchOptions form 5000).maxResults = -1 ∧
    (searchOptions form 5000).offset = 10 ∧ (searchOptions form 5000).limit = 20 := by
  decide +kernel

/-- The hypotheses of the exact statements are met by it. -/
example : IsNumeral b!"35" 35 ∧ IsSigned b!"-7" (-7) := by
  refine ⟨by unfold IsNumeral; decide, b!"7", 7, by unfold IsNumeral; decide, .inr (.inr ⟨rfl, rfl⟩)⟩

/-- A limit of zero is not replaced: it turns the cap off. -/
example : (searchOptions (fun k => if k = b!"limit" then b!"0" else []) 5000).maxResults = 0 := by
  decide +kernel

/-! ## C31 -/

/-- **C31**. White space around the parameter is ignored. If what remains is `*`, all configured
repositories are searched, each exactly once; otherwise it is a comma separated list of names, and
exactly the configured ones of them are searched, in the order given. -/
theorem repoList_exact {α : Type} (v : Bytes) (idx : List (Bytes × α)) (hk : (idx.map (·.1)).Nodup) :
    ∃ l mid r, v = l ++ mid ++ r ∧ AllSpace spaces l ∧ AllSpace spaces r ∧
      (∀ w ∈ spaces, ¬ w <+: mid ∧ ¬ w <:+ mid) ∧
      (mid = b!"*" → ∀ n, (parseAsRepoList v idx).count n = if n ∈ idx.map (·.1) then 1 else 0) ∧
      (mid ≠ b!"*" → ∀ items, items ≠ [] → (∀ x ∈ items, (44 : UInt8) ∉ x) → joinComma items = mid →
        parseAsRepoList v idx = items.filter fun n => decide (n ∈ idx.map (·.1))) := by
  obtain ⟨l, r, hl, hr, he, hno⟩ := trimSpace_spec v
  have hlook : ∀ n : Bytes, (idx.lookup n).isSome = decide (n ∈ idx.map (·.1)) := by
    intro n
    clear hk
    induction idx with
    | nil => simp
    | cons e es ih =>
      obtain ⟨k, a⟩ := e
      simp only [List.lookup_cons]
      by_cases hn : n = k
      · simp [hn]
      · have hb : (n == k) = false := by simpa using hn
        simp only [hb, ih, List.map_cons, List.mem_cons, hn, false_or]
  refine ⟨l, trimSpace v, r, he, hl, hr, hno, ?_, ?_⟩
  · intro hm n
    simp only [parseAsRepoList, if_pos hm]
    split
    · rename_i hin
      have h1 : (idx.map (·.1)).count n ≤ 1 := List.nodup_iff_count.1 hk n
      have h2 := List.count_pos_iff.2 hin
      omega
    · rename_i hin
      exact List.count_eq_zero.2 hin
  · intro hm items hne hc hj
    simp only [parseAsRepoList, if_neg hm]
    rw [← hj, splitByte_join items hne hc]
    exact List.filter_congr fun n _ => hlook n

/-- **C31**. Every repository searched is configured. -/
theorem repoList_configured {α : Type} (v : Bytes) (idx : List (Bytes × α)) :
    ∀ n ∈ parseAsRepoList v idx, ∃ a, (n, a) ∈ idx := by
  intro n hn
  unfold parseAsRepoList at hn
  simp only at hn
  split at hn
  · obtain ⟨e, he, rfl⟩ := List.mem_map.1 hn
    exact ⟨e.2, he⟩
  · have := (List.mem_filter.1 hn).2
    obtain ⟨a, ha⟩ := Option.isSome_iff_exists.1 this
    refine ⟨a, ?_⟩
    clear hn this
    induction idx with
    | nil => simp at ha
    | cons e es ih =>
      obtain ⟨k, b⟩ := e
      simp only [List.lookup_cons] at ha
      by_cases hnk : n = k
      · simp only [hnk, beq_self_eq_true, Option.some.injEq] at ha
        simp [hnk, ha]
      · have hb : (n == k) = false := by simpa using hnk
        simp only [hb] at ha
        simp [ih ha]

/-- Every string is the join of items without commas, so the list case above always applies. -/
theorem items_exist (s : Bytes) : ∃ items, items ≠ [] ∧ (∀ x ∈ items, (44 : UInt8) ∉ x) ∧ joinComma items = s :=
  ⟨splitByte 44 s, splitByte_ne 44 s, (splitByte_spec s).2, (splitByte_spec s).1⟩

example : parseAsRepoList b!" \tbeta,nosuch,alpha " [(b!"alpha", 1), (b!"beta", 2), (b!"gamma", 3)] =
    [b!"beta", b!"alpha"] := by decide +kernel

example : parseAsRepoList b!" * " [(b!"alpha", 1), (b!"beta", 2)] = [b!"alpha", b!"beta"] := by
  decide +kernel

/-! ## C32 -/

/-- **C32**. If an update request is answered "ok", it was a POST, and every repository the parameter
resolves to accepts push updates and now has an update request pending; the other repositories are
unchanged. -/
theorem update_ok {method : Bytes} {form : Bytes → Bytes} {idx idx' : List (Bytes × Srch)}
    (h : handleUpdate method form idx = (.ok, idx')) :
    method = b!"POST" ∧
    (∀ r ∈ parseAsRepoList (form b!"repos") idx, ∃ s, idx.lookup r = some s ∧ s.push = true ∧
      idx'.lookup r = some { s with pending := true }) ∧
    (∀ r, r ∉ parseAsRepoList (form b!"repos") idx → idx'.lookup r = idx.lookup r) := by
  unfold handleUpdate at h
  split at h
  · simp at h
  · rename_i hm
    exact ⟨Classical.not_not.1 hm, updateLoop_ok h⟩

/-- **C32**. A POST is answered "ok" if all repositories it resolves to accept push updates. -/
theorem update_complete {form : Bytes → Bytes} {idx : List (Bytes × Srch)}
    (h : ∀ r ∈ parseAsRepoList (form b!"repos") idx, ∃ s, idx.lookup r = some s ∧ s.push = true) :
    (handleUpdate b!"POST" form idx).1 = .ok := by
  unfold handleUpdate
  rw [if_neg (by simp)]
  exact updateLoop_all h

/-- **C32**. A request with another method changes nothing, for both handlers. -/
theorem update_other_method {method : Bytes} (hm : method ≠ b!"POST") (form : Bytes → Bytes)
    (body : Option Bytes) (idx : List (Bytes × Srch)) :
    handleUpdate method form idx = (.methodNotAllowed, idx) ∧
    handleWebhook method body idx = (.methodNotAllowed, idx) := by
  simp [handleUpdate, handleWebhook, hm]

/-- **C32**. Whatever the reply, a searcher is unchanged or gets a pending request, the latter only if
the request names it and it accepts push updates. -/
theorem update_effect (method : Bytes) (form : Bytes → Bytes) (idx : List (Bytes × Srch)) (r : Bytes) :
    (handleUpdate method form idx).2.lookup r = idx.lookup r ∨
    (r ∈ parseAsRepoList (form b!"repos") idx ∧ ∃ s, idx.lookup r = some s ∧ s.push = true ∧
      (handleUpdate method form idx).2.lookup r = some { s with pending := true }) := by
  unfold handleUpdate
  split
  · exact .inl rfl
  · exact updateLoop_any r

/-- **C32**, the webhook. It is answered "ok" exactly for a POST whose body names a configured
repository that accepts push updates; that repository then has a pending request, all others are
unchanged. Any other reply leaves everything unchanged. -/
theorem webhook_exact (method : Bytes) (body : Option Bytes) (idx : List (Bytes × Srch)) :
    ((handleWebhook method body idx).1 = .ok ↔
      method = b!"POST" ∧ ∃ n s, body = some n ∧ idx.lookup n = some s ∧ s.push = true) ∧
    (∀ n s, (handleWebhook method body idx).1 = .ok → body = some n → idx.lookup n = some s →
      (handleWebhook method body idx).2.lookup n = some { s with pending := true } ∧
      ∀ r, r ≠ n → (handleWebhook method body idx).2.lookup r = idx.lookup r) ∧
    ((handleWebhook method body idx).1 ≠ .ok → (handleWebhook method body idx).2 = idx) := by
  by_cases hm : method = b!"POST"
  · cases body with
    | none => simp [handleWebhook, hm]
    | some n =>
      cases hl : idx.lookup n with
      | none => simp [handleWebhook, hm, hl]
      | some s =>
        cases hp : s.push with
        | false => simp [handleWebhook, hm, hl, Srch.update, hp]
        | true =>
          have e : handleWebhook method (some n) idx =
              (.ok, setSrch n { s with pending := true } idx) := by
            simp [handleWebhook, hm, hl, Srch.update, hp]
          rw [e]
          refine ⟨by simp [hm, hl, hp], ?_, by simp⟩
          intro n' s' _ hn hs
          obtain rfl := Option.some.inj hn
          rw [hl] at hs
          obtain rfl := Option.some.inj hs
          refine ⟨by rw [lookup_setSrch, if_pos rfl, hl]; rfl, ?_⟩
          intro r hr
          rw [lookup_setSrch, if_neg hr]
  · simp [handleWebhook, hm]

/-- A POST for two of three repositories. -/
example :
    handleUpdate b!"POST" (fun _ => b!"a,c") [(b!"a", ⟨true, false⟩), (b!"b", ⟨false, false⟩), (b!"c", ⟨true, true⟩)] =
      (.ok, [(b!"a", ⟨true, true⟩), (b!"b", ⟨false, false⟩), (b!"c", ⟨true, true⟩)]) := by decide +kernel

/-- Repositories before the one that refuses are notified although the reply is an error. -/
example :
    handleUpdate b!"POST" (fun _ => b!"*") [(b!"a", ⟨true, false⟩), (b!"b", ⟨false, false⟩), (b!"c", ⟨true, false⟩)] =
      (.forbidden b!"b", [(b!"a", ⟨true, true⟩), (b!"b", ⟨false, false⟩), (b!"c", ⟨true, false⟩)]) := by
  decide +kernel

/-- A name that is not configured is ignored: the reply is "ok" although nothing was notified. -/
example : handleUpdate b!"POST" (fun _ => b!"nosuch") [(b!"a", ⟨true, false⟩)] =
    (.ok, [(b!"a", ⟨true, false⟩)]) := by decide +kernel

end Hound.Api
