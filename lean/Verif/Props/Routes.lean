import Verif.Spec.Routes
import Verif.Proofs.Paths
import Verif.Props.TextFile

/-!
# C77: which address gives what
-/

namespace Hound.Routes
open Spec Path

theorem plainName_iff (n : Bytes) : PlainName n ↔ Proper n :=
  ⟨fun h => ⟨h.some, h.here, h.up, h.one⟩, fun h => ⟨h.1, h.2.1, h.2.2.1, h.2.2.2⟩⟩

theorem absolute_last {names : List Bytes} (h : ∀ n ∈ names, PlainName n) (hn : names ≠ []) :
    (absolutePath names).getLast? ≠ some SL := by
  obtain ⟨init, n, rfl⟩ : ∃ init n, names = init ++ [n] := ⟨_, _, (List.dropLast_concat_getLast hn).symm⟩
  have hp := h n (by simp)
  rw [absolutePath, if_neg hn, List.flatMap_append]
  simp only [List.flatMap_cons, List.flatMap_nil, List.append_nil]
  rw [List.getLast?_append, List.getLast?_cons]
  intro hl
  obtain ⟨a, m, rfl⟩ : ∃ a m, n = a ++ [m] := ⟨_, _, (List.dropLast_concat_getLast hp.some).symm⟩
  simp at hl
  exact hp.one (by rw [hl]; simp [SL])

theorem absolute_ne (names : List Bytes) : absolutePath names ≠ [] := by
  rw [absolutePath]
  split
  · decide
  · rename_i h
    obtain ⟨n, ns, rfl⟩ := List.exists_cons_of_ne_nil h
    simp

theorem absolute_root {names : List Bytes} (h : ∀ n ∈ names, PlainName n) : absolutePath names = [SL] ↔ names = [] := by
  constructor
  · intro e
    cases names with
    | nil => rfl
    | cons n ns =>
      rw [absolutePath, if_neg (by simp)] at e
      simp only [List.flatMap_cons, List.cons_append] at e
      exact absurd (List.append_eq_nil_iff.1 (List.cons.inj e).2).1 (h n (by simp)).some
  · rintro rfl; rfl

theorem absolute_fromRoot (names : List Bytes) : FromRoot (absolutePath names) := by
  rw [absolutePath]
  split
  · exact ⟨[], rfl⟩
  · rename_i h
    obtain ⟨n, ns, rfl⟩ := List.exists_cons_of_ne_nil h
    exact ⟨_, rfl⟩

/-- The path that is cleaned. -/
def rooted (p : Bytes) : Bytes := if p = [] then [SL] else if p.head? = some SL then p else SL :: p

theorem rooted_fromRoot (p : Bytes) : FromRoot (rooted p) := by
  rw [rooted]
  split
  · exact ⟨[], rfl⟩
  · split
    · rename_i h
      cases p with
      | nil => cases h
      | cons c t => cases h; exact ⟨t, rfl⟩
    · exact ⟨p, rfl⟩

theorem rooted_of {p : Bytes} (h : FromRoot p) : rooted p = p := by
  obtain ⟨t, rfl⟩ := h
  rw [rooted, if_neg (by simp), if_pos (show (47 :: t).head? = some SL from rfl)]

/-- The place a path leads to. -/
def place (p : Bytes) : List Bytes := follow [] (pathNames p)

theorem place_plain (p : Bytes) : ∀ n ∈ place p, PlainName n := fun n hn =>
  (plainName_iff n).2 (follow_proper _ _ (pathNames_noSL p) (by simp) n hn)

theorem cleanPath_eq (p : Bytes) : cleanPath p =
    if (rooted p).getLast? = some SL ∧ place (rooted p) ≠ [] then absolutePath (place (rooted p)) ++ [SL]
    else absolutePath (place (rooted p)) := by
  have hr : Path.clean (rooted p) = absolutePath (place (rooted p)) := clean_abs (rooted_fromRoot p)
  by_cases h0 : p = []
  · subst h0; decide +kernel
  · have e : cleanPath p = if (rooted p).getLast? = some SL ∧ Path.clean (rooted p) ≠ [SL] then Path.clean (rooted p) ++ [SL]
        else Path.clean (rooted p) := by
      rw [cleanPath, if_neg h0, rooted, if_neg h0]
    rw [e, hr]
    have : absolutePath (place (rooted p)) ≠ [SL] ↔ place (rooted p) ≠ [] := not_congr (absolute_root (place_plain _))
    simp only [this]

theorem cleanPath_plain (p : Bytes) : PlainPath (cleanPath p) := by
  refine ⟨place (rooted p), place_plain _, ?_⟩
  rw [cleanPath_eq]
  split
  · rename_i h; exact .inr ⟨h.2, rfl⟩
  · exact .inl rfl

theorem place_absolute {names : List Bytes} (h : ∀ n ∈ names, PlainName n) : place (absolutePath names) = names :=
  pathNames_absolute names fun n hn => (plainName_iff n).1 (h n hn)

theorem place_slash (p : Bytes) : place (p ++ [SL]) = place p := by
  rw [place, place, show p ++ [SL] = p ++ SL :: [] from rfl, pathNames_append_sl, follow_append]
  rfl

theorem cleanPath_place (p : Bytes) : place (cleanPath p) = place (rooted p) := by
  rw [cleanPath_eq]
  split
  · rw [place_slash, place_absolute (place_plain _)]
  · rw [place_absolute (place_plain _)]

theorem plain_fixed {p : Bytes} : PlainPath p ↔ cleanPath p = p := by
  constructor
  · rintro ⟨names, hn, h | ⟨hne, h⟩⟩
    · have hr : rooted p = p := rooted_of (by rw [h]; exact absolute_fromRoot names)
      rw [cleanPath_eq, hr, h, place_absolute hn, if_neg]
      rintro ⟨h1, h2⟩
      exact absolute_last hn h2 h1
    · have hr : rooted p = p := rooted_of (by
        obtain ⟨t, ht⟩ := absolute_fromRoot names
        exact ⟨t ++ [47], by rw [h, ht]; rfl⟩)
      have hp : place p = names := by
        rw [h]; exact (place_slash _).trans (place_absolute hn)
      rw [cleanPath_eq, hr, hp, if_pos ⟨by rw [h]; simp [SL], hne⟩, h]; rfl
  · intro h; rw [← h]; exact cleanPath_plain p

/-! ### Files -/

theorem elements_eq (s : Bytes) : elements s = pathNames s := by
  induction s with
  | nil => rfl
  | cons c t ih =>
    rw [elements, pathNames, ih]
    rfl

theorem utf8_cons {c : UInt8} (hc : c.toNat < 0x80) (t : Bytes) : utf8Valid (c :: t) = utf8Valid t := by
  rw [utf8Valid, List.length_cons, validLoop, if_pos hc]; rfl

theorem flatMap_names (s : Bytes) : ((pathNames s).flatMap fun n => 47 :: n) = 47 :: s := by
  induction s with
  | nil => rfl
  | cons c t ih =>
    rw [pathNames]
    split
    · rename_i h; subst h
      rw [List.flatMap_cons, ih]; rfl
    · cases hp : pathNames t with
      | nil => exact absurd hp (pathNames_ne t)
      | cons n ns =>
        rw [hp] at ih
        simp only [List.flatMap_cons, List.cons_append, List.cons.injEq, true_and] at ih ⊢
        exact ih

theorem names_flatMap : ∀ names : List Bytes, names ≠ [] → (∀ n ∈ names, 47 ∉ n) →
    ∀ s, (names.flatMap fun n => 47 :: n) = 47 :: s → pathNames s = names
  | [n], _, h, s, e => by
    simp only [List.flatMap_cons, List.flatMap_nil, List.append_nil, List.cons.injEq, true_and] at e
    rw [← e]
    exact pathNames_name n (h n (by simp))
  | n :: m :: ns, _, h, s, e => by
    have ih := names_flatMap (m :: ns) (by simp) (fun x hx => h x (by simp [hx])) (m ++ ns.flatMap fun n => 47 :: n) rfl
    rw [List.flatMap_cons, List.cons_append, List.cons.injEq] at e
    rw [← e.2]
    show pathNames (n ++ SL :: (m ++ ns.flatMap fun n => 47 :: n)) = _
    rw [pathNames_append_sl, ih, pathNames_name n (h n (by simp))]; rfl

theorem validPath_iff (name : Bytes) : validPath (b!".build/ui/" ++ name) = true ↔
    ValidUtf8 (47 :: name) ∧ ∀ n ∈ pathNames name, PlainName n := by
  have hu : utf8Valid (b!".build/ui/" ++ name) = utf8Valid name := by
    simp only [List.cons_append, List.nil_append]
    repeat rw [utf8_cons (by decide)]
  have hv : ValidUtf8 (47 :: name) ↔ utf8Valid name = true := by
    rw [← utf8Valid_iff, utf8_cons (by decide)]
  have hd : (b!".build/ui/" ++ name == b!".") = false := by
    cases name <;> rfl
  have he : elements (b!".build/ui/" ++ name) = b!".build" :: b!"ui" :: pathNames name := by
    rw [elements_eq, show b!".build/ui/" ++ name = b!".build/ui" ++ SL :: name from by simp [SL], pathNames_append_sl]
    rfl
  rw [validPath, hu, hd, he, hv, Bool.false_or, Bool.and_eq_true, List.all_cons, List.all_cons]
  have e1 : (!(b!".build" == []) && !(b!".build" == b!".") && !(b!".build" == b!"..")) = true := by decide
  have e2 : (!(b!"ui" == []) && !(b!"ui" == b!".") && !(b!"ui" == b!"..")) = true := by decide
  rw [e1, e2, Bool.true_and, Bool.true_and, List.all_eq_true]
  refine and_congr_right fun _ => ⟨fun h n hn => ?_, fun h n hn => ?_⟩
  · have := h n hn
    simp only [Bool.and_eq_true, Bool.not_eq_true', beq_eq_false_iff_ne] at this
    exact ⟨this.1.1, this.1.2, this.2, pathNames_noSL name n hn⟩
  · have := h n hn
    simp only [Bool.and_eq_true, Bool.not_eq_true', beq_eq_false_iff_ne]
    exact ⟨⟨this.some, this.here⟩, this.up⟩

theorem asset_at (files : Files) (name content : Bytes) :
    asset files name = some content ↔ FileAt files (47 :: name) content := by
  have e : (b!".build/ui/" ++ name) = b!".build/ui" ++ (47 :: name) := by simp
  rw [asset]
  by_cases hv : validPath (b!".build/ui/" ++ name) = true
  · obtain ⟨h1, h2⟩ := (validPath_iff name).1 hv
    simp only [hv, if_true]
    rw [e]
    constructor
    · intro h
      refine ⟨pathNames name, pathNames_ne name, h2, h1, ?_, h⟩
      rw [absolutePath, if_neg (pathNames_ne name), flatMap_names]
    · rintro ⟨-, -, -, -, -, h⟩; exact h
  · simp only [hv]
    constructor
    · intro h; cases h
    · rintro ⟨names, hne, hn, hu, hp, -⟩
      refine absurd ((validPath_iff name).2 ⟨hu, ?_⟩) hv
      rw [absolutePath, if_neg hne] at hp
      rw [names_flatMap names hne (fun n hn' => (hn n hn').one) name hp.symm]
      exact hn

/-! ### C77 -/

theorem lookup_call {p : Bytes} {c : Call} : apiPatterns.lookup p = some c ↔ p = callAt c := by
  constructor
  · intro h
    have hm : (p, c) ∈ apiPatterns := by
      have : ∀ (l : List (Bytes × Call)), l.lookup p = some c → (p, c) ∈ l := by
        intro l
        induction l with
        | nil => intro h; cases h
        | cons e l ih =>
          intro h
          rw [List.lookup_cons] at h
          split at h
          · rename_i he
            cases h
            rw [beq_iff_eq.1 he]; simp
          · exact List.mem_cons_of_mem _ (ih h)
      exact this _ h
    simp only [apiPatterns, List.mem_cons, Prod.mk.injEq, List.not_mem_nil, or_false] at hm
    rcases hm with ⟨rfl, rfl⟩ | ⟨rfl, rfl⟩ | ⟨rfl, rfl⟩ | ⟨rfl, rfl⟩ | ⟨rfl, rfl⟩ <;> rfl
  · rintro rfl
    cases c <;> decide

theorem lookup_page {p : Bytes} {g : Page} : contents.lookup p = some g ↔ p = pageAt g := by
  constructor
  · intro h
    have hm : (p, g) ∈ contents := by
      have : ∀ (l : List (Bytes × Page)), l.lookup p = some g → (p, g) ∈ l := by
        intro l
        induction l with
        | nil => intro h; cases h
        | cons e l ih =>
          intro h
          rw [List.lookup_cons] at h
          split at h
          · rename_i he
            cases h
            rw [beq_iff_eq.1 he]; simp
          · exact List.mem_cons_of_mem _ (ih h)
      exact this _ h
    simp only [contents, List.mem_cons, Prod.mk.injEq, List.not_mem_nil, or_false] at hm
    rcases hm with ⟨rfl, rfl⟩ | ⟨rfl, rfl⟩ | ⟨rfl, rfl⟩ <;> rfl
  · rintro rfl
    cases g <;> decide

theorem pages_calls (g : Page) (c : Call) : pageAt g ≠ callAt c := by cases g <;> cases c <;> decide

theorem lookup_none {α : Type} {f : Bytes → Option α} {at' : α → Bytes} {p : Bytes} (hf : ∀ c, f p = some c ↔ p = at' c) :
    f p = none ↔ ∀ c, p ≠ at' c := by
  constructor
  · intro h c hc; rw [(hf c).2 hc] at h; cases h
  · intro h
    cases hp : f p with
    | none => rfl
    | some c => exact absurd ((hf c).1 hp) (h c)

theorem uiServe_found (files : Files) {p : Bytes} (hp : FromRoot p) (hc : ∀ c, p ≠ callAt c) : Found files p (uiServe files p) := by
  obtain ⟨name, rfl⟩ := hp
  rw [uiServe]
  cases hg : contents.lookup (47 :: name) with
  | some g => exact .page (lookup_page.1 hg)
  | none =>
    have hg := (lookup_none (f := fun p => contents.lookup p) (at' := pageAt) fun c => lookup_page).1 hg
    have ht : ¬ Taken (47 :: name) := by
      rintro (⟨c, h⟩ | ⟨g, h⟩)
      · exact hc c h
      · exact hg g h
    simp only []
    cases ha : asset files name with
    | some a => exact .asset ht ((asset_at files name a).1 ha)
    | none =>
      refine .nothing ht fun content h => ?_
      rw [(asset_at files name content).2 h] at ha; cases ha

theorem muxMatch_found (files : Files) (p : Bytes) : Found files p (muxMatch files p) := by
  rw [muxMatch]
  split
  · rename_i h
    subst h
    exact uiServe_found files ⟨[], rfl⟩ fun c => by cases c <;> decide
  · cases hl : apiPatterns.lookup p with
    | some c => exact .call (lookup_call.1 hl)
    | none =>
      have hc := (lookup_none (f := fun p => apiPatterns.lookup p) (at' := callAt) fun c => lookup_call).1 hl
      simp only []
      split
      · rename_i hh
        refine uiServe_found files ?_ hc
        cases p with
        | nil => cases hh
        | cons c t => cases hh; exact ⟨t, rfl⟩
      · rename_i hh
        refine .nothing ?_ ?_
        · rintro (⟨c, h⟩ | ⟨g, h⟩)
          · exact hc c h
          · rw [h] at hh; exact hh (by cases g <;> rfl)
        · rintro content ⟨names, -, -, -, h, -⟩
          obtain ⟨t, ht⟩ := absolute_fromRoot names
          rw [h, ht] at hh; exact hh rfl

/-- What is found at a path is one thing. -/
theorem found_one {files : Files} {p : Bytes} {a b : Reply} (ha : Found files p a) (hb : Found files p b) : a = b := by
  have hcc : ∀ c d, callAt c = callAt d → c = d := by intro c d; cases c <;> cases d <;> decide
  have hpp : ∀ c d, pageAt c = pageAt d → c = d := by intro c d; cases c <;> cases d <;> decide
  cases ha with
  | call h =>
    cases hb with
    | call h' => rw [hcc _ _ (h.symm.trans h')]
    | page h' => exact absurd (h'.symm.trans h) (pages_calls _ _)
    | asset ht _ => exact absurd (.inl ⟨_, h⟩) ht
    | nothing ht _ => exact absurd (.inl ⟨_, h⟩) ht
  | page h =>
    cases hb with
    | call h' => exact absurd (h.symm.trans h') (pages_calls _ _)
    | page h' => rw [hpp _ _ (h.symm.trans h')]
    | asset ht _ => exact absurd (.inr ⟨_, h⟩) ht
    | nothing ht _ => exact absurd (.inr ⟨_, h⟩) ht
  | asset ht hf =>
    cases hb with
    | call h' => exact absurd (.inl ⟨_, h'⟩) ht
    | page h' => exact absurd (.inr ⟨_, h'⟩) ht
    | asset _ hf' =>
      obtain ⟨-, -, -, -, -, e⟩ := hf
      obtain ⟨-, -, -, -, -, e'⟩ := hf'
      rw [e] at e'; cases e'; rfl
    | nothing _ hn => exact absurd hf (hn _)
  | nothing ht hn =>
    cases hb with
    | call h' => exact absurd (.inl ⟨_, h'⟩) ht
    | page h' => exact absurd (.inr ⟨_, h'⟩) ht
    | asset _ hf' => exact absurd hf' (hn _)
    | nothing _ _ => rfl

/-- **C77**: the health check is answered at its address, whatever else is there and whether or not the server is ready, and
only there; every other request is refused until the server is ready. -/
theorem health_and_ready (files : Files) (healthURI : Bytes) (ready : Bool) (r : Req) :
    (serve files healthURI ready r = .healthy ↔ r.path = healthURI) ∧
    (serve files healthURI ready r = .notReady ↔ r.path ≠ healthURI ∧ ready = false) := by
  have hm : muxServe files r ≠ .healthy ∧ muxServe files r ≠ .notReady := by
    rw [muxServe]
    have hf := muxMatch_found files r.path
    split
    · exact ⟨nofun, nofun⟩
    · split
      · constructor <;> intro h <;> rw [h] at hf <;> cases hf
      · dsimp only
        split
        · exact ⟨nofun, nofun⟩
        · constructor <;> intro h <;> rw [h] at hf <;> cases hf
  rw [serve]
  by_cases hp : r.path = healthURI
  · rw [if_pos hp]
    exact ⟨⟨fun _ => hp, fun _ => rfl⟩, ⟨nofun, fun h => absurd hp h.1⟩⟩
  · rw [if_neg hp]
    cases ready with
    | false => exact ⟨⟨nofun, fun h => absurd h hp⟩, ⟨fun _ => ⟨hp, rfl⟩, fun _ => rfl⟩⟩
    | true => exact ⟨⟨fun h => absurd h hm.1, fun h => absurd h hp⟩, ⟨fun h => absurd h hm.2, nofun⟩⟩

/-- **C77**: when the server is ready, an address with plain names gives the call, the page or the file that is there, or
nothing. -/
theorem address_found (files : Files) {healthURI : Bytes} {r : Req} (ho : Ordinary r) (hp : PlainPath r.path)
    (hh : r.path ≠ healthURI) : Found files r.path (serve files healthURI true r) := by
  rw [serve, if_neg hh, if_pos rfl, muxServe, if_neg ho.notStar, if_neg ho.notConnect]
  simp only [plain_fixed.1 hp, ne_eq, not_true, if_false]
  exact muxMatch_found files r.path

/-- **C77**: any other address leads to one with plain names for the same place, on the same server (it begins with one slash),
with a slash at the end only if it had one. -/
theorem address_redirected (files : Files) {healthURI : Bytes} {r : Req} (ho : Ordinary r) (hp : ¬ PlainPath r.path)
    (hh : r.path ≠ healthURI) : ∃ t, serve files healthURI true r = .redirect t ∧ PlainPath t ∧
      follow [] (pathNames t) = follow [] (pathNames r.path) ∧ (∃ s, t = 47 :: s ∧ s.head? ≠ some 47) ∧
      (t.getLast? = some 47 → t = b!"/" ∨ r.path.getLast? = some 47) := by
  refine ⟨cleanPath r.path, ?_, cleanPath_plain _, ?_, ?_, ?_⟩
  · rw [serve, if_neg hh, if_pos rfl, muxServe, if_neg ho.notStar, if_neg ho.notConnect]
    exact if_pos fun h => hp (plain_fixed.2 h)
  · have := cleanPath_place r.path
    rw [place, place] at this
    rw [this, rooted]
    split
    · rename_i h; rw [h]; rfl
    · split
      · rfl
      · rfl
  · obtain ⟨names, hn, h⟩ := cleanPath_plain r.path
    cases names with
    | nil =>
      rcases h with h | ⟨h, -⟩
      · exact ⟨[], h, nofun⟩
      · exact absurd rfl h
    | cons n ns =>
      have hn' := hn n (by simp)
      obtain ⟨c, n', rfl⟩ := List.exists_cons_of_ne_nil hn'.some
      have hc : c ≠ 47 := fun h => hn'.one (by simp [h])
      have e : absolutePath ((c :: n') :: ns) = 47 :: c :: (n' ++ ns.flatMap fun n => 47 :: n) := by
        rw [absolutePath, if_neg (by simp)]; rfl
      rw [e] at h
      rcases h with h | ⟨-, h⟩
      · exact ⟨_, h, by simpa using hc⟩
      · exact ⟨_, h, by simpa using hc⟩
  · rw [cleanPath_eq]
    intro h
    split at h
    · rename_i hs
      right
      have := hs.1
      rw [rooted] at this
      split at this
      · rename_i h0
        rw [h0, rooted, if_pos rfl] at hs
        exact absurd rfl hs.2
      · rename_i h0
        split at this
        · exact this
        · obtain ⟨c, t, hct⟩ := List.exists_cons_of_ne_nil h0
          rw [hct, List.getLast?_cons_cons] at this
          rw [hct]; exact this
    · rename_i hs
      left
      by_cases hq : place (rooted r.path) = []
      · rw [if_neg hs, hq]; rfl
      · exact absurd h (absolute_last (place_plain _) hq)

/-- **C77**: the other requests. -/
theorem other_requests (files : Files) {healthURI : Bytes} {r : Req} (hh : r.path ≠ healthURI) :
    (r.requestURI = b!"*" → serve files healthURI true r = .badRequest) ∧
    (r.requestURI ≠ b!"*" → r.method = b!"CONNECT" → Found files r.path (serve files healthURI true r)) := by
  rw [serve, if_neg hh, if_pos rfl, muxServe]
  refine ⟨fun h => if_pos h, fun h hm => ?_⟩
  rw [if_neg h, if_pos hm]
  exact muxMatch_found files r.path

/-- **C77**: nobody is redirected twice. -/
theorem redirected_once (files : Files) (healthURI : Bytes) {r r' : Req} {t : Bytes} {ready : Bool}
    (h : serve files healthURI ready r = .redirect t) (hr : r'.path = t) (t' : Bytes) :
    serve files healthURI ready r' ≠ .redirect t' := by
  have hf : ∀ p x, muxMatch files p ≠ .redirect x := by
    intro p x h
    have := muxMatch_found files p
    rw [h] at this; cases this
  have ht : t = cleanPath r.path := by
    rw [serve] at h
    split at h
    · cases h
    · split at h
      · rw [muxServe] at h
        split at h
        · cases h
        · split at h
          · exact absurd h (hf _ _)
          · dsimp only at h
            split at h
            · cases h; rfl
            · exact absurd h (hf _ _)
      · cases h
  have hp : cleanPath r'.path = r'.path := plain_fixed.1 (by rw [hr, ht]; exact cleanPath_plain _)
  rw [serve]
  split
  · nofun
  · split
    · rw [muxServe]
      split
      · nofun
      · split
        · exact hf _ _
        · simp only [hp, ne_eq, not_true, if_false]
          exact hf _ _
    · nofun

/-- **C77**: requests of every kind are answered (`p[1:]` never fails), and whatever is asked for, a file that is sent is one of
those in the program, of the name that was asked for. -/
theorem always_answered (files : Files) (healthURI : Bytes) (ready : Bool) (r : Req) :
    serve files healthURI ready r ≠ .panic ∧
    ∀ content, serve files healthURI ready r = .asset content →
      FileAt files r.path content ∧ (b!".build/ui" ++ r.path, content) ∈ files := by
  have hmux : muxServe files r ≠ .panic ∧ ∀ content, muxServe files r = .asset content → FileAt files r.path content := by
    have hf := muxMatch_found files r.path
    have hm : muxMatch files r.path ≠ .panic ∧ ∀ content, muxMatch files r.path = .asset content → FileAt files r.path content := by
      refine ⟨fun h => ?_, fun c h => ?_⟩
      · rw [h] at hf; cases hf
      · rw [h] at hf; cases hf; assumption
    rw [muxServe]
    split
    · exact ⟨nofun, nofun⟩
    · split
      · exact hm
      · dsimp only
        split
        · exact ⟨nofun, nofun⟩
        · exact hm
  have hl : ∀ (l : Files) (n c : Bytes), l.lookup n = some c → (n, c) ∈ l := by
    intro l n c
    induction l with
    | nil => intro h; cases h
    | cons e l ih =>
      intro h
      rw [List.lookup_cons] at h
      split at h
      · rename_i he
        cases h
        rw [beq_iff_eq.1 he]; simp
      · exact List.mem_cons_of_mem _ (ih h)
  rw [serve]
  split
  · exact ⟨nofun, nofun⟩
  · split
    · refine ⟨hmux.1, fun c h => ?_⟩
      have hf := hmux.2 c h
      refine ⟨hf, ?_⟩
      obtain ⟨-, -, -, -, -, e⟩ := hf
      exact hl _ _ _ e
    · exact ⟨nofun, nofun⟩

/-! ### Examples -/

/-- Some of the files. -/
def someFiles : Files := [(b!".build/ui/css/hound.css", b!"body {}"), (b!".build/ui/index.tpl.html", b!"<html>")]

/-- A request for a path. -/
def get (p : Bytes) : Req := ⟨b!"GET", p, p⟩

theorem get_ordinary (p : Bytes) (h : p ≠ b!"*") : Ordinary (get p) := ⟨h, show b!"GET" ≠ b!"CONNECT" by decide⟩

theorem css_plain : PlainPath (get b!"/css/hound.css").path :=
  ⟨[b!"css", b!"hound.css"], by
    intro n hn
    simp only [List.mem_cons, List.not_mem_nil, or_false] at hn
    rcases hn with rfl | rfl <;> exact ⟨by decide, by decide, by decide, by decide⟩, .inl (by decide)⟩

example : serve someFiles b!"/healthz" true (get b!"/css/hound.css") = .asset b!"body {}" := by decide +kernel
example : Found someFiles b!"/css/hound.css" (serve someFiles b!"/healthz" true (get b!"/css/hound.css")) :=
  address_found someFiles (get_ordinary _ (by decide)) css_plain (by decide)
example : serve someFiles b!"/healthz" true (get b!"/css/") = .notFound := by decide +kernel
example : serve someFiles b!"/healthz" true (get b!"//evil.example/../api/./v1//search") = .redirect b!"/api/v1/search" := by
  decide +kernel
example : serve someFiles b!"/healthz" true (get b!"/..//a/") = .redirect b!"/a/" := by decide +kernel
example : serve someFiles b!"/healthz" true (get b!"/api/v1/search") = .call .search := by decide +kernel
example : serve someFiles b!"/healthz" false (get b!"/") = .notReady := by decide +kernel
example : serve someFiles b!"/healthz" true ⟨b!"CONNECT", b!"/css/../index.tpl.html", b!"/css/../index.tpl.html"⟩ = .notFound := by
  decide +kernel

/-- Templates are served as they are, too. -/
example : serve someFiles b!"/healthz" true (get b!"/index.tpl.html") = .asset b!"<html>" := by decide +kernel

/-- A health check at `/` takes the place of the main page. -/
example : serve someFiles b!"/" true (get b!"/") = .healthy := by decide +kernel

end Hound.Routes
