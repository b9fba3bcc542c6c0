import Verif.Spec.OpenSearch
import Verif.Props.PageStart
import Verif.Props.UiRepos

/-!
# C78: searching from the search field of the browser
-/

namespace Hound.OpenSearch
open Spec Ui Boot

/-! ### The address that is opened -/

theorem host_byte {c : UInt8} (h : AlphaNum c ∨ c ∈ b!"!$%&()*+,-.:;=['~_]") :
    c ≠ 34 ∧ c ≠ 60 ∧ c ≠ 123 ∧ c ≠ 35 ∧ c ≠ 63 ∧ c.toNat < 128 :=
  Url.forall_u8 (P := fun c => AlphaNum c ∨ c ∈ b!"!$%&()*+,-.:;=['~_]" → c ≠ 34 ∧ c ≠ 60 ∧ c ≠ 123 ∧ c ≠ 35 ∧ c ≠ 63 ∧ c.toNat < 128)
    (by decide +kernel) c h

theorem readAttr_plain : ∀ {s : Bytes}, 38 ∉ s → 60 ∉ s → readAttr s = some s
  | [], _, _ => rfl
  | c :: t, h1, h2 => by
    have ih := readAttr_plain (s := t) (fun h => h1 (by simp [h])) (fun h => h2 (by simp [h]))
    have hc : c ≠ 38 := fun h => h1 (by simp [h])
    have hc' : c ≠ 60 := fun h => h2 (by simp [h])
    rw [readAttr.eq_def]
    split
    all_goals first
      | (rename_i hh; exfalso; injection hh with hh; exact hc hh)
      | skip
    · rename_i hh; cases hh
    · rename_i hh
      injection hh with h3 h4
      subst h3; subst h4
      rw [if_neg (by simp [hc, hc']), ih]; rfl

/-- A text with `&` is read as something else, or not at all. -/
theorem readAttr_amp : ∀ (s t : Bytes), readAttr s = some t → t.length ≤ s.length ∧ (t = s → 38 ∉ s)
  | s, t, h => by
    rw [readAttr.eq_def] at h
    split at h
    · cases h; simp
    all_goals try
      ( rename_i u _
        cases hr : readAttr u with
        | none => rw [hr] at h; cases h
        | some v =>
          rw [hr] at h
          have ih := (readAttr_amp _ _ hr).1
          cases h
          refine ⟨by simp only [List.length_cons]; omega, fun e => ?_⟩
          have := congrArg List.length e
          simp only [List.length_cons] at this
          omega )
    all_goals try
      ( rename_i u
        cases hr : readAttr u with
        | none => rw [hr] at h; cases h
        | some v =>
          rw [hr] at h
          have ih := (readAttr_amp _ _ hr).1
          cases h
          refine ⟨by simp only [List.length_cons]; omega, fun e => ?_⟩
          have := congrArg List.length e
          simp only [List.length_cons] at this
          omega )
    · rename_i c u _ _ _ _ _
      split at h
      · cases h
      · rename_i hc
        cases hr : readAttr u with
        | none => rw [hr] at h; cases h
        | some v =>
          rw [hr] at h
          have ih := readAttr_amp _ _ hr
          cases h
          refine ⟨by simp only [List.length_cons]; omega, fun e => ?_⟩
          injection e with _ e
          intro hm
          rcases List.mem_cons.1 hm with hm | hm
          · exact hc (.inl hm.symm)
          · exact ih.2 e hm
termination_by s => s.length

/-- The template in the description. -/
theorem template_eq {host : Bytes} (hh : HostName host) :
    between b!"template=\"" b!"\"" (description host) = some (b!"http://" ++ (host ++ b!"/?q={searchTerms}")) := by
  have e1 : xml1 = xml1.take (xml1.length - 17) ++ (b!"template=\"" ++ b!"http://") := by decide +kernel
  have e2 : xml2 = b!"/?q={searchTerms}" ++ (b!"\"" ++ xml2.drop 18) := by decide +kernel
  have hs : (34 : UInt8) ∉ host := fun h => (host_byte (hh _ h)).1 rfl
  have h1 : cut b!"template=\"" (description host) = some (xml1.take (xml1.length - 17), b!"http://" ++ (host ++ xml2)) := by
    rw [description, e1, List.append_assoc, List.append_assoc]
    have := cut_parts (pat := b!"template=\"") (a := xml1.take (xml1.length - 17)) (by decide +kernel)
      (cut_here (pat := b!"template=\"") (b!"http://" ++ (host ++ xml2)))
    rw [List.append_nil] at this
    rw [← e1]
    exact this
  have h2 : cut b!"\"" (b!"http://" ++ (host ++ xml2)) = some (b!"http://" ++ (host ++ b!"/?q={searchTerms}"), xml2.drop 18) := by
    rw [e2]
    have := cut_parts (pat := b!"\"") (a := b!"http://" ++ (host ++ b!"/?q={searchTerms}")) (safe_of_absent (by
      intro h
      rcases List.mem_append.1 h with h | h
      · revert h; decide
      · rcases List.mem_append.1 h with h | h
        · exact hs h
        · revert h; decide)) (cut_here (pat := b!"\"") (xml2.drop 18))
    rw [List.append_nil] at this
    rw [← e2, ← this]
    simp only [List.append_assoc]
    rw [← e2]
  rw [between, h1, Option.bind_some]
  dsimp only
  rw [h2]; rfl

/-- The address opened for a search is the main page of this host, with the terms as the browser wrote them. -/
theorem visit_eq {host : Bytes} (hh : HostName host) (ha : 38 ∉ host) (terms : Bytes) :
    visit (description host) terms = some (b!"http://" ++ host ++ b!"/?q=" ++ terms) := by
  have h38 : (38 : UInt8) ∉ b!"http://" ++ (host ++ b!"/?q={searchTerms}") := by
    intro h
    rcases List.mem_append.1 h with h | h
    · revert h; decide
    · rcases List.mem_append.1 h with h | h
      · exact ha h
      · revert h; decide
  have h60 : (60 : UInt8) ∉ b!"http://" ++ (host ++ b!"/?q={searchTerms}") := by
    intro h
    rcases List.mem_append.1 h with h | h
    · revert h; decide
    · rcases List.mem_append.1 h with h | h
      · exact (host_byte (hh _ h)).2.1 rfl
      · revert h; decide
  have hc : cut b!"{searchTerms}" (b!"http://" ++ (host ++ b!"/?q={searchTerms}")) = some (b!"http://" ++ (host ++ b!"/?q="), []) := by
    have := cut_parts (pat := b!"{searchTerms}") (a := b!"http://" ++ (host ++ b!"/?q=")) (safe_of_absent (by
      intro h
      rcases List.mem_append.1 h with h | h
      · revert h; decide
      · rcases List.mem_append.1 h with h | h
        · exact (host_byte (hh _ h)).2.2.1 rfl
        · revert h; decide)) (cut_here (pat := b!"{searchTerms}") [])
    simpa using this
  rw [visit, template_eq hh]
  simp only [Option.bind_eq_bind, Option.bind_some]
  rw [readAttr_plain h38 h60, Option.bind_some, hc]
  simp

/-! ### What the page makes of the address -/

theorem field_byte {c : UInt8} (h : AlphaNum c ∨ c ∈ b!"-_.~!*'()") :
    32 < c ∧ c.toNat < 128 ∧ c ≠ 35 ∧ c ≠ 43 ∧ c ≠ 61 ∧ c ≠ 38 ∧ uriKept c.toNat = true :=
  Url.forall_u8 (P := fun c => AlphaNum c ∨ c ∈ b!"-_.~!*'()" → 32 < c ∧ c.toNat < 128 ∧ c ≠ 35 ∧ c ≠ 43 ∧ c ≠ 61 ∧ c ≠ 38 ∧ uriKept c.toNat = true)
    (by decide +kernel) c h

theorem pct_byte (b : UInt8) : ∀ c ∈ Url.pct b, 32 < c ∧ c.toNat < 128 ∧ c ≠ 35 ∧ c ≠ 43 ∧ c ≠ 61 ∧ c ≠ 38 :=
  Url.forall_u8 (P := fun b => ∀ c ∈ Url.pct b, 32 < c ∧ c.toNat < 128 ∧ c ≠ 35 ∧ c ≠ 43 ∧ c ≠ 61 ∧ c ≠ 38) (by decide +kernel) b

theorem typed_bytes {rs : List Rune} {e : Bytes} (h : TypedAs rs e) :
    ∀ c ∈ e, 32 < c ∧ c.toNat < 128 ∧ c ≠ 35 ∧ c ≠ 61 ∧ c ≠ 38 := by
  induction h with
  | nil => simp
  | kept hc _ ih =>
    intro c hm
    rcases List.mem_cons.1 hm with rfl | hm
    · have := field_byte hc
      exact ⟨this.1, this.2.1, this.2.2.1, this.2.2.2.2.1, this.2.2.2.2.2.1⟩
    · exact ih c hm
  | encoded _ _ ih =>
    intro c hm
    rcases List.mem_append.1 hm with hm | hm
    · obtain ⟨b, _, hb⟩ := List.mem_flatMap.1 hm
      have := pct_byte b c hb
      exact ⟨this.1, this.2.1, this.2.2.1, this.2.2.2.2.1, this.2.2.2.2.2⟩
    · exact ih c hm
  | plus _ ih =>
    intro c hm
    rcases List.mem_cons.1 hm with rfl | hm
    · decide
    · exact ih c hm

theorem typed_valid {rs : List Rune} {e : Bytes} (h : TypedAs rs e) : ∀ r ∈ rs, validRune r = true := by
  induction h with
  | nil => simp
  | @kept c _ _ hc _ ih =>
    intro r hm
    rcases List.mem_cons.1 hm with rfl | hm
    · exact Url.forall_u8 (P := fun c => c.toNat < 128 → validRune c.toNat = true) (by decide +kernel) c (field_byte hc).2.1
    · exact ih r hm
  | encoded hr _ ih =>
    intro r hm
    rcases List.mem_cons.1 hm with rfl | hm
    · exact hr
    · exact ih r hm
  | plus _ ih =>
    intro r hm
    rcases List.mem_cons.1 hm with rfl | hm
    · decide
    · exact ih r hm

/-- The page reads `+` as a space. -/
def spaced (s : JsStr) : JsStr := s.map fun c => if c = 43 then 32 else c

theorem spaced_plain {s : JsStr} (h : ∀ u ∈ s, u ≠ 43) : spaced s = s := by
  conv => rhs; rw [← List.map_id s]
  exact List.map_congr_left fun u hu => if_neg (h u hu)

theorem spaced_append (a b : JsStr) : spaced (a ++ b) = spaced a ++ spaced b := List.map_append

theorem js_pcts (bs : Bytes) : js (bs.flatMap Url.pct) = bs.flatMap pctUnits := by
  induction bs with
  | nil => rfl
  | cons b bs ih => rw [List.flatMap_cons, js_append, ih]; rfl

theorem token_pos (k : Bool) {r : Nat} (hv : validRune r = true) :
    1 ≤ (if k = true then units r else (encodeRaw r).flatMap pctUnits).length := by
  split
  · unfold units; split <;> simp
  · obtain ⟨b, bs, he, -⟩ := Ui.encodeRaw_head hv
    rw [he, List.flatMap_cons, List.length_append]
    have : (pctUnits b).length = 3 := rfl
    omega

/-- What was typed is read back from what the browser makes of it. -/
theorem typed_read {rs : List Rune} {e : Bytes} (h : TypedAs rs e) :
    (∀ u ∈ browser ((js e).map UInt16.toNat), u ≠ 38 ∧ u ≠ 61) ∧
    ∃ f, f ≤ (spaced (browser ((js e).map UInt16.toNat))).length ∧
      decodeLoop f (spaced (browser ((js e).map UInt16.toNat))) = some (rs.flatMap units) := by
  have step : ∀ (r : Nat) (k : Bool) (a : Bytes) (rs : List Rune) (e : Bytes), validRune r = true → (k = true → r < 128 ∧ r ≠ 37) →
      (∀ u ∈ browser ((js a).map UInt16.toNat), u ≠ 38 ∧ u ≠ 61) →
      spaced (browser ((js a).map UInt16.toNat)) = (if k = true then units r else (encodeRaw r).flatMap pctUnits) →
      ((∀ u ∈ browser ((js e).map UInt16.toNat), u ≠ 38 ∧ u ≠ 61) ∧
        ∃ f, f ≤ (spaced (browser ((js e).map UInt16.toNat))).length ∧
          decodeLoop f (spaced (browser ((js e).map UInt16.toNat))) = some (rs.flatMap units)) →
      (∀ u ∈ browser ((js (a ++ e)).map UInt16.toNat), u ≠ 38 ∧ u ≠ 61) ∧
        ∃ f, f ≤ (spaced (browser ((js (a ++ e)).map UInt16.toNat))).length ∧
          decodeLoop f (spaced (browser ((js (a ++ e)).map UInt16.toNat))) = some ((r :: rs).flatMap units) := by
    rintro r k a rs e hv hk h1 h2 ⟨h3, f, hf, hd⟩
    rw [js_append, List.map_append, browser_append]
    refine ⟨fun u hu => ?_, f + 1, ?_, ?_⟩
    · rcases List.mem_append.1 hu with hu | hu
      · exact h1 u hu
      · exact h3 u hu
    · rw [spaced_append, List.length_append, h2]
      have := token_pos k hv
      omega
    · rw [spaced_append, h2, List.flatMap_cons]
      exact decode_one hv hk hd
  have hpct : ∀ bs : Bytes, ∀ u ∈ bs.flatMap pctUnits, u ≠ 38 ∧ u ≠ 61 ∧ u ≠ 43 := by
    intro bs u hu
    obtain ⟨b, _, hb⟩ := List.mem_flatMap.1 hu
    have := pctUnits_plain b u hb
    exact ⟨this.2.2.2.2.2.1, this.2.2.2.2.2.2.2.1, this.2.2.2.2.2.2.1⟩
  induction h with
  | nil => exact ⟨by simp [js, browser, encodeKeeping], 0, Nat.zero_le _, rfl⟩
  | @kept c rs e hc ht ih =>
    have hb := field_byte hc
    have hu := uriKept_lt hb.2.2.2.2.2.2
    have hju : js [c] = units c.toNat := by
      rw [units_ascii hu.1]
      simp [js]
    have hbr := browser_kept hb.2.2.2.2.2.2
    have hval := typed_valid (.kept hc ht) c.toNat (by simp)
    refine step c.toNat (kept' c.toNat) [c] rs e hval (fun _ => hu) ?_ ?_ ih
    · rw [hju, hbr]
      intro u hm
      split at hm
      · have := uriKept_plain hb.2.2.2.2.2.2 u hm
        exact ⟨this.2.2.2.2.2.1, this.2.2.2.2.2.2.2.1⟩
      · have := hpct _ u hm
        exact ⟨this.1, this.2.1⟩
    · rw [hju, hbr, spaced_plain]
      intro u hm
      split at hm
      · exact (uriKept_plain hb.2.2.2.2.2.2 u hm).2.2.2.2.2.2.1
      · exact (hpct _ u hm).2.2
  | @encoded r rs e hv ht ih =>
    refine step r false _ rs e hv nofun ?_ ?_ ih
    · rw [js_pcts, browser_pcts]
      intro u hm
      have := hpct _ u hm
      exact ⟨this.1, this.2.1⟩
    · rw [js_pcts, browser_pcts, spaced_plain fun u hm => (hpct _ u hm).2.2]; rfl
  | @plus rs e ht ih =>
    exact step 32 true [43] rs e (by decide) (by decide) (by decide +kernel) (by decide +kernel) ih

/-- The parameters the page reads from the address. -/
theorem params_read {host : Bytes} (hh : HostName host) {rs : List Rune} {e : Bytes} (h : TypedAs rs e) :
    paramsFromQueryString (locationSearch (js (b!"http://" ++ host ++ b!"/?q=" ++ e))) noParams =
      some fun k => if k = js b!"q" then some (rs.flatMap units) else noParams k := by
  have hb := typed_bytes h
  obtain ⟨hp, f, hf, hd⟩ := typed_read h
  have hn : ∀ x : UInt8, (∀ c ∈ host, c ≠ x) → x ∉ b!"http://" → x ∉ b!"/" → x.toUInt16 ∉ js (b!"http://" ++ host ++ b!"/") := by
    intro x h1 h2 h3 hm
    obtain ⟨c, hc, he⟩ := List.mem_map.1 hm
    have hcx : c = x := by
      have := congrArg UInt16.toNat he
      rw [toUInt16_toNat, toUInt16_toNat] at this
      exact UInt8.toNat_inj.1 this
    subst hcx
    rcases List.mem_append.1 hc with hc | hc
    · rcases List.mem_append.1 hc with hc | hc
      · exact h2 hc
      · exact h1 c hc rfl
    · exact h3 hc
  have e1 : js (b!"http://" ++ host ++ b!"/?q=" ++ e) = js (b!"http://" ++ host ++ b!"/") ++ 63 :: js (b!"q=" ++ e) := by
    simp [js]
  have hmem : ∀ u ∈ js (b!"q=" ++ e), ∃ c : UInt8, u = c.toUInt16 ∧ (c = 113 ∨ c = 61 ∨ c ∈ e) := by
    intro u hu
    obtain ⟨c, hc, rfl⟩ := List.mem_map.1 hu
    exact ⟨c, rfl, by simpa using hc⟩
  have hlt : ∀ c : UInt8, 32 < c → c ≠ 35 → c.toUInt16 ≠ 9 ∧ c.toUInt16 ≠ 10 ∧ c.toUInt16 ≠ 13 ∧ c.toUInt16 ≠ 35 ∧ 32 < c.toUInt16 :=
    Url.forall_u8 (P := fun c => 32 < c → c ≠ 35 → c.toUInt16 ≠ 9 ∧ c.toUInt16 ≠ 10 ∧ c.toUInt16 ≠ 13 ∧ c.toUInt16 ≠ 35 ∧ 32 < c.toUInt16)
      (by decide +kernel)
  have hunits : ∀ u ∈ js (b!"q=" ++ e), u ≠ 9 ∧ u ≠ 10 ∧ u ≠ 13 ∧ u ≠ 35 ∧ 32 < u := by
    intro u hu
    obtain ⟨c, rfl, rfl | rfl | hc⟩ := hmem u hu
    · decide
    · decide
    · exact hlt c (hb c hc).1 (hb c hc).2.2.1
  have e2 : locationSearch (js (b!"http://" ++ host ++ b!"/") ++ 63 :: js (b!"q=" ++ e)) = 63 :: normalQuery (js (b!"q=" ++ e)) := by
    refine locationSearch_of (hn 35 (fun c hc => (host_byte (hh c hc)).2.2.2.1) (by decide) (by decide))
      (hn 63 (fun c hc => (host_byte (hh c hc)).2.2.2.2.1) (by decide) (by decide)) (by simp [js]) ?_ ?_
    · intro u hu
      have := hunits u hu
      exact ⟨this.1, this.2.1, this.2.2.1, this.2.2.2.1⟩
    · intro u hu
      exact (hunits u (List.mem_of_getLast? hu)).2.2.2.2
  have hasc : AsciiUnits (js (b!"q=" ++ e)) := by
    refine js_ascii _ fun c hc => ?_
    rcases List.mem_append.1 hc with hc | hc
    · exact (by decide : ∀ c ∈ b!"q=", c.toNat < 128) c hc
    · exact (hb c hc).2.1
  have e3 : normalQuery (js (b!"q=" ++ e)) = js b!"q" ++ 61 :: browser ((js e).map UInt16.toNat) := by
    unfold normalQuery
    have := codePoints_ascii (lone := some 0xFFFD) hasc []
    rw [List.append_nil] at this
    rw [this]
    have e : codePoints (some 0xFFFD) [] = some [] := rfl
    rw [e, Option.map_some, Option.getD_some, List.append_nil, js_append, List.map_append]
    show browser _ = _
    rw [browser_append, show browser ((js b!"q=").map UInt16.toNat) = js b!"q" ++ [61] from by decide +kernel]
    simp
  rw [e1, e2, paramsFromQueryString, if_neg (by simp), List.drop_one, List.tail_cons, e3, splitUnit_single]
  · simp only [List.foldl_cons, List.foldl_nil, Option.bind_some]
    rw [paramPart, splitUnit_append (by decide), splitUnit_single fun hm => (hp _ hm).2 rfl]
    dsimp only
    have hdec : decodeURIComponent (spaced (browser ((js e).map UInt16.toNat))) = some (rs.flatMap units) :=
      decodeLoop_fuel hd hf
    rw [show decodeURIComponent (js b!"q") = some (js b!"q") from by decide +kernel]
    show ((some (js b!"q")).bind fun key => (decodeURIComponent (spaced (browser ((js e).map UInt16.toNat)))).bind _) = _
    rw [hdec]
    rfl
  · intro hm
    rcases List.mem_append.1 hm with hm | hm
    · revert hm; decide
    · rcases List.mem_cons.1 hm with hm | hm
      · cases hm
      · exact (hp _ hm).1 rfl

/-! ### C78 -/

/-- **C78**, the full statement: whatever is typed into the search field of the browser, and however the browser writes it into
the address, the page that opens asks the server for exactly that. -/
def FieldFull : Prop := ∀ (host : Bytes), HostName host → ∀ (text : List Rune) (terms : Bytes), text ≠ [] → TypedAs text terms →
  ∃ address data query, visit (description host) terms = some address ∧ opened address = some data ∧
    requestQuery data = some query ∧ AsksFor query text

/-- **C78**, for names of hosts without `&`. -/
theorem field_search_partial {host : Bytes} (hh : HostName host) (ha : 38 ∉ host) {text : List Rune} {terms : Bytes}
    (hne : text ≠ []) (h : TypedAs text terms) : ∃ data query,
      visit (description host) terms = some (b!"http://" ++ host ++ b!"/?q=" ++ terms) ∧
      opened (b!"http://" ++ host ++ b!"/?q=" ++ terms) = some data ∧ requestQuery data = some query ∧ AsksFor query text := by
  have hv := typed_valid h
  have hu : text.flatMap units ≠ [] := by
    obtain ⟨r, rs, rfl⟩ := List.exists_cons_of_ne_nil hne
    rw [List.flatMap_cons]
    have : 1 ≤ (units r).length := by unfold units; split <;> simp
    intro e
    rw [List.append_eq_nil_iff] at e
    rw [e.1] at this
    exact absurd this (by decide)
  have hopen : opened (b!"http://" ++ host ++ b!"/?q=" ++ terms) =
      some (searchData ⟨text.flatMap units, js b!"nope", js b!"nope", [], [], js b!"*"⟩) := by
    have hm : ∀ (k v : JsStr), k ≠ js b!"q" → noParams k = some v →
        (if k = js b!"q" then some (text.flatMap units) else noParams k) = some v := fun k v h1 h2 => by rw [if_neg h1, h2]
    rw [opened, params_read hh h]
    simp only [Option.bind_eq_bind, Option.bind_some]
    rw [hm (js b!"i") (js b!"nope") (by decide) (by decide), hm (js b!"literal") (js b!"nope") (by decide) (by decide),
      hm (js b!"files") [] (by decide) (by decide), hm (js b!"excludeFiles") [] (by decide) (by decide),
      hm (js b!"repos") (js b!"*") (by decide) (by decide), if_pos trivial]
    simp only [Option.bind_some]
    rw [if_neg hu]
  obtain ⟨query, hq, hl⟩ := page_request (searchData ⟨text.flatMap units, js b!"nope", js b!"nope", [], [], js b!"*"⟩) (by
    have ht : ∀ b : Bytes, (∀ c ∈ b, c.toNat < 128) → IsText (js b) := ascii_text
    have hnil : IsText [] := ⟨[], by simp, rfl⟩
    intro p hp
    simp only [searchData, List.mem_cons, List.not_mem_nil, or_false] at hp
    rcases hp with rfl | rfl | rfl | rfl | rfl | rfl | rfl | rfl
    · exact ⟨ht _ (by decide), ht _ (by decide)⟩
    · exact ⟨ht _ (by decide), ht _ (by decide)⟩
    · exact ⟨ht _ (by decide), text, hv, rfl⟩
    · exact ⟨ht _ (by decide), hnil⟩
    · exact ⟨ht _ (by decide), hnil⟩
    · exact ⟨ht _ (by decide), ht _ (by decide)⟩
    · exact ⟨ht _ (by decide), ht _ (by decide)⟩
    · exact ⟨ht _ (by decide), ht _ (by decide)⟩)
  have get : ∀ (name : Bytes) (v : JsStr) (t : Bytes), SameText (js name) name →
      (searchData ⟨text.flatMap units, js b!"nope", js b!"nope", [], [], js b!"*"⟩).lookup (js name) = some v → SameText v t →
      Url.formValue query name = t := by
    intro name v t h1 h2 h3
    have := hl (js name) name h1
    rw [h2] at this
    exact sameText_unique this h3
  refine ⟨_, query, visit_eq hh ha terms, hopen, hq, ?_⟩
  have nope : SameText (js b!"nope") b!"nope" := ⟨[110, 111, 112, 101], by decide, by decide, by decide⟩
  have none : SameText [] [] := ⟨[], by simp, rfl, rfl⟩
  constructor
  · refine get b!"q" _ _ ⟨[113], by decide, by decide, by decide⟩ ?_ ⟨text, hv, rfl, rfl⟩
    rfl
  · exact get b!"repos" _ _ ⟨[114, 101, 112, 111, 115], by decide, by decide, by decide⟩ rfl ⟨[42], by decide, rfl, by decide⟩
  · exact get b!"files" _ _ ⟨[102, 105, 108, 101, 115], by decide, by decide, by decide⟩ rfl none
  · exact get b!"excludeFiles" _ _ ⟨[101, 120, 99, 108, 117, 100, 101, 70, 105, 108, 101, 115], by decide, by decide, by decide⟩ rfl none
  · exact get b!"i" _ _ ⟨[105], by decide, by decide, by decide⟩ rfl nope
  · exact get b!"literal" _ _ ⟨[108, 105, 116, 101, 114, 97, 108], by decide, by decide, by decide⟩ rfl nope

/-- With `&` in its name, which a request can have, the description is not well formed. -/
theorem not_fieldFull : ¬ FieldFull := by
  intro h
  obtain ⟨a, d, q, h1, -⟩ := h b!"a&b" (by unfold HostName; decide) [120] b!"x" (by decide) (.kept (c := 120) (by decide) .nil)
  rw [visit, template_eq (by unfold HostName; decide)] at h1
  have : readAttr (b!"http://" ++ (b!"a&b" ++ b!"/?q={searchTerms}")) = none := by decide +kernel
  simp only [Option.bind_eq_bind, Option.bind_some] at h1
  rw [this] at h1
  cases h1

/-- **C78**: the description is exactly right for the names without `&`. -/
theorem template_right_iff {host : Bytes} (hh : HostName host) :
    (∃ raw, between b!"template=\"" b!"\"" (description host) = some raw ∧
      readAttr raw = some (b!"http://" ++ host ++ b!"/?q={searchTerms}")) ↔ 38 ∉ host := by
  rw [template_eq hh]
  constructor
  · rintro ⟨raw, h1, h2⟩ hm
    cases h1
    refine (readAttr_amp _ _ h2).2 (by simp) ?_
    simp [hm]
  · intro ha
    refine ⟨_, rfl, ?_⟩
    rw [List.append_assoc]
    refine readAttr_plain ?_ ?_
    · intro h
      rcases List.mem_append.1 h with h | h
      · revert h; decide
      · rcases List.mem_append.1 h with h | h
        · exact ha h
        · revert h; decide
    · intro h
      rcases List.mem_append.1 h with h | h
      · revert h; decide
      · rcases List.mem_append.1 h with h | h
        · exact (host_byte (hh _ h)).2.1 rfl
        · revert h; decide

/-! ### The link to the description -/

theorem urlNormal_cons (c : UInt8) (t : Bytes) (hc : c ≠ 37) : urlNormal (c :: t) =
    if urlKept c then c :: urlNormal t
    else 37 :: JsonText.hexLow (c.toNat / 16) :: JsonText.hexLow (c.toNat % 16) :: urlNormal t := by
  rw [urlNormal.eq_def]
  simp only [beq_eq_false_iff_ne.2 hc, Bool.false_and, Bool.or_false]

theorem urlNormal_for : ∀ host : Bytes, 37 ∉ host → PercentFor (urlNormal host) host
  | [], _ => .nil
  | c :: t, h => by
    have hc : c ≠ 37 := fun e => h (by simp [e])
    have ih := urlNormal_for t fun e => h (by simp [e])
    rw [urlNormal_cons c t hc]
    split
    · exact .same hc ih
    · have hx := Url.forall_u8 (P := fun c => Url.unhex (JsonText.hexLow (c.toNat / 16)) = some (c / 16) ∧
        Url.unhex (JsonText.hexLow (c.toNat % 16)) = some (c % 16)) (by decide +kernel) c
      exact .byte hx.1 hx.2 ih

theorem urlNormal_encoded {host name : Bytes} (h : PercentFor host name) : PercentFor (urlNormal host) name := by
  induction h with
  | nil => exact .nil
  | @same c a b hc _ ih =>
    rw [urlNormal_cons c a hc]
    split
    · exact .same hc ih
    · have hx := Url.forall_u8 (P := fun c => Url.unhex (JsonText.hexLow (c.toNat / 16)) = some (c / 16) ∧
        Url.unhex (JsonText.hexLow (c.toNat % 16)) = some (c % 16)) (by decide +kernel) c
      exact .byte hx.1 hx.2 ih
  | @byte c h l a b h1 h2 _ ih =>
    have key : ∀ x : UInt8, (Url.unhex x).isSome = true → isHex x = true ∧ x ≠ 37 ∧ urlKept x = true := fun x =>
      Url.forall_u8 (P := fun x => (Url.unhex x).isSome = true → isHex x = true ∧ x ≠ 37 ∧ urlKept x = true) (by decide +kernel) x
    have kh := key h (by rw [h1]; rfl)
    have kl := key l (by rw [h2]; rfl)
    have : urlNormal (37 :: h :: l :: a) = 37 :: h :: l :: urlNormal a := by
      rw [urlNormal.eq_def]
      simp only [kh.1, kl.1, Bool.and_self, beq_self_eq_true, Bool.or_true, if_true]
      rw [urlNormal_cons h _ kh.2.1, if_pos kh.2.2, urlNormal_cons l _ kl.2.1, if_pos kl.2.2]
    rw [this]
    exact .byte h1 h2 ih

theorem urlNormal_plain : ∀ host : Bytes, (∀ c ∈ host, AlphaNum c ∨ c ∈ b!"-.:[]") → urlNormal host = host
  | [], _ => rfl
  | c :: t, h => by
    have hk := Url.forall_u8 (P := fun c => AlphaNum c ∨ c ∈ b!"-.:[]" → c ≠ 37 ∧ urlKept c = true) (by decide +kernel) c
      (h c (by simp))
    rw [urlNormal_cons c t hk.1, if_pos hk.2, urlNormal_plain t fun x hx => h x (by simp [hx])]

theorem urlNormal_clean (host : Bytes) : ∀ c ∈ urlNormal host, c ≠ 34 ∧ c ≠ 0 := by
  induction host with
  | nil => intro c h; cases h
  | cons x t ih =>
    have hx := Url.forall_u8 (P := fun x => (urlKept x = true ∨ x = 37 → x ≠ 34 ∧ x ≠ 0) ∧ JsonText.hexLow (x.toNat / 16) ≠ 34 ∧
      JsonText.hexLow (x.toNat / 16) ≠ 0 ∧ JsonText.hexLow (x.toNat % 16) ≠ 34 ∧ JsonText.hexLow (x.toNat % 16) ≠ 0) (by decide +kernel) x
    have key : ∀ (c : UInt8) (g : Bool), (c ∈ if urlKept x || (x == 37 && g) then x :: urlNormal t
        else 37 :: JsonText.hexLow (x.toNat / 16) :: JsonText.hexLow (x.toNat % 16) :: urlNormal t) → c ≠ 34 ∧ c ≠ 0 := by
      intro c g hc
      split at hc
      · rename_i hk
        rcases List.mem_cons.1 hc with rfl | hc
        · refine hx.1 ?_
          simp only [Bool.or_eq_true, Bool.and_eq_true, beq_iff_eq] at hk
          exact hk.imp id And.left
        · exact ih c hc
      · simp only [List.mem_cons] at hc
        rcases hc with rfl | rfl | rfl | hc
        · decide
        · exact ⟨hx.2.1, hx.2.2.1⟩
        · exact ⟨hx.2.2.2.1, hx.2.2.2.2⟩
        · exact ih c hc
    intro c hc
    rw [urlNormal.eq_def] at hc
    exact key c _ hc

theorem nulReplaced_id {s : Bytes} (h : ∀ c ∈ s, c ≠ 0) : nulReplaced s = s := by
  induction s with
  | nil => rfl
  | cons c t ih =>
    rw [nulReplaced, List.flatMap_cons, if_neg (h c (by simp))]
    show c :: nulReplaced t = _
    rw [ih fun x hx => h x (by simp [hx])]

theorem readAs_append {a b c d : Bytes} (h : ReadAs a b) (h' : ReadAs c d) : ReadAs (a ++ c) (b ++ d) := by
  induction h with
  | nil => exact h'
  | plain h1 h2 h3 _ ih => exact .plain h1 h2 h3 ih
  | reference hm _ ih => rw [List.append_assoc]; exact .reference hm ih

theorem htmlEscape_quote (s : Bytes) : (34 : UInt8) ∉ htmlEscape s := by
  intro h
  obtain ⟨b, _, hb⟩ := List.mem_flatMap.1 h
  exact Url.forall_u8 (P := fun b => (34 : UInt8) ∉ htmlByte b) (by decide +kernel) b hb

/-- **C78**: the page tells browsers of the description on the host it was asked for by (percent-encoded where it has to be; what is
encoded already stays so). -/
theorem description_linked (title host source : Bytes) (repos : List (Bytes × Config.Repo)) : ∃ raw t,
    between b!"<link rel=\"search\" href=\"" b!"\"" (indexPage title host source repos) = some raw ∧
    ReadAs raw (b!"//" ++ t ++ b!"/open_search.xml") ∧ (37 ∉ host → PercentFor t host) ∧
    (∀ name, PercentFor host name → PercentFor t name) ∧ ((∀ c ∈ host, AlphaNum c ∨ c ∈ b!"-.:[]") → t = host) := by
  have e2 : part2 = part2.take (part2.length - 27) ++ (b!"<link rel=\"search\" href=\"" ++ b!"//") := by decide +kernel
  have e3 : part3 = b!"/open_search.xml" ++ (b!"\"" ++ part3.drop 17) := by decide +kernel
  refine ⟨b!"//" ++ (htmlEscape (urlNormal host) ++ b!"/open_search.xml"), urlNormal host, ?_, ?_, urlNormal_for host,
    fun _ => urlNormal_encoded, urlNormal_plain host⟩
  · have h1 : ∀ rest, cut b!"<link rel=\"search\" href=\"" (part1 ++ (htmlEscape title ++ (part2 ++ rest))) =
        some (part1 ++ (htmlEscape title ++ part2.take (part2.length - 27)), b!"//" ++ rest) := by
      intro rest
      refine cut_parts (by decide +kernel) (cut_parts (safe_of_absent (htmlEscape_clean title)) ?_)
      have := cut_parts (pat := b!"<link rel=\"search\" href=\"") (a := part2.take (part2.length - 27)) (by decide +kernel)
        (cut_here (pat := b!"<link rel=\"search\" href=\"") (b!"//" ++ rest))
      rw [List.append_nil] at this
      rw [← this]
      conv => lhs; rw [e2]
      simp only [List.append_assoc]
    have h2 : ∀ rest, cut b!"\"" (b!"//" ++ (htmlEscape (urlNormal host) ++ (part3 ++ rest))) =
        some (b!"//" ++ (htmlEscape (urlNormal host) ++ b!"/open_search.xml"), part3.drop 17 ++ rest) := by
      intro rest
      refine cut_parts (by decide +kernel) (cut_parts (safe_of_absent (htmlEscape_quote _)) ?_)
      have := cut_parts (pat := b!"\"") (a := b!"/open_search.xml") (by decide +kernel)
        (cut_here (pat := b!"\"") (part3.drop 17 ++ rest))
      rw [List.append_nil] at this
      rw [← this]
      conv => lhs; rw [e3]
      simp only [List.append_assoc]
    rw [between, indexPage, h1, Option.bind_some]
    dsimp only
    rw [h2]; rfl
  · have hr := htmlEscape_reads (urlNormal host)
    rw [nulReplaced_id fun c hc => (urlNormal_clean host c hc).2] at hr
    have h1 : ReadAs b!"//" b!"//" := .plain (by decide) (by decide) (by decide) (.plain (by decide) (by decide) (by decide) .nil)
    have h3 : ∀ s : Bytes, (∀ c ∈ s, c ≠ 38 ∧ c ≠ 60 ∧ c ≠ 0) → ReadAs s s := by
      intro s
      induction s with
      | nil => intro _; exact .nil
      | cons c t ih =>
        intro h
        have hc := h c (by simp)
        exact .plain hc.1 hc.2.1 hc.2.2 (ih fun x hx => h x (by simp [hx]))
    have := readAs_append h1 (readAs_append hr (h3 b!"/open_search.xml" (by decide)))
    rw [← List.append_assoc b!"//" (urlNormal host)] at this
    exact this

/-- A search for `a b'é`, as browsers write it. -/
example : TypedAs [97, 32, 98, 39, 233] b!"a+b'%C3%A9" :=
  .kept (c := 97) (by decide) (.plus (.kept (c := 98) (by decide) (.kept (c := 39) (by decide) (.encoded (r := 233) (by decide) .nil))))

example : HostName b!"[::1]:6080" ∧ 38 ∉ b!"[::1]:6080" := by unfold HostName; decide

example : visit (description b!"hound.example:6080") b!"a+b'%C3%A9" = some b!"http://hound.example:6080/?q=a+b'%C3%A9" :=
  visit_eq (by unfold HostName; decide) (by decide) _

example : PercentFor (urlNormal b!"a(b") b!"a(b" := urlNormal_for _ (by decide)

example : urlNormal b!"a(b" = b!"a%28b" := by decide +kernel

end Hound.OpenSearch
