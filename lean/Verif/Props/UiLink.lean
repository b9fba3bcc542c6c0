import Verif.Spec.Link
import Verif.Proofs.Client

/-!
# C60: links to the source (`ui/assets/js/common.js`)
-/

namespace Hound.Ui
open Spec

/-- How a placeholder is written. -/
def braces (n : JsStr) : JsStr := 123 :: n ++ [125]

theorem prefix_braces {n m : JsStr} (hn : (125 : UInt16) ∉ n) (hm : (125 : UInt16) ∉ m) (s : JsStr)
    (h : n ++ [125] <+: m ++ 125 :: s) : n = m := by
  induction n generalizing m with
  | nil =>
    cases m with
    | nil => rfl
    | cons b m =>
      simp only [List.nil_append, List.cons_append, List.cons_prefix_cons] at h
      exact absurd (by simp [h.1]) hm
  | cons a n ih =>
    cases m with
    | nil =>
      simp only [List.cons_append, List.nil_append, List.cons_prefix_cons] at h
      exact absurd (by simp [h.1]) hn
    | cons b m =>
      simp only [List.cons_append, List.cons_prefix_cons] at h
      simp only [List.mem_cons, not_or] at hn hm
      rw [h.1, ih hn.2 hm.2 h.2]

theorem braces_head (n : JsStr) (c : UInt16) (s : JsStr) (h : braces n <+: c :: s) : c = 123 := by
  simp only [braces, List.cons_append, List.cons_prefix_cons] at h; exact h.1.symm

theorem splitFirst_text {n t : JsStr} (ht : (123 : UInt16) ∉ t) (s : JsStr) :
    splitFirst (braces n) (t ++ s) = (splitFirst (braces n) s).map fun r => (t ++ r.1, r.2) := by
  induction t with
  | nil => cases h : splitFirst (braces n) s <;> simp [h]
  | cons c t ih =>
    simp only [List.mem_cons, not_or] at ht
    rw [List.cons_append, splitFirst, if_neg fun h => ht.1 (braces_head n c _ h).symm, ih ht.2]
    cases splitFirst (braces n) s <;> rfl

theorem splitFirst_nil (n : JsStr) : splitFirst (braces n) [] = none := by
  rw [splitFirst, if_neg (by simp [braces])]

theorem splitFirst_var {n m : JsStr} (hn : (125 : UInt16) ∉ n) (hm : (123 : UInt16) ∉ m ∧ (125 : UInt16) ∉ m) (h : n ≠ m)
    (s : JsStr) : splitFirst (braces n) (braces m ++ s) = (splitFirst (braces n) s).map fun r => (braces m ++ r.1, r.2) := by
  have e : braces m ++ s = 123 :: (m ++ [125] ++ s) := rfl
  rw [e, splitFirst, if_neg, splitFirst_text]
  · cases splitFirst (braces n) s <;> rfl
  · simp only [List.mem_append, List.mem_singleton, not_or]; exact ⟨hm.1, by decide⟩
  · intro hp
    simp only [braces, List.cons_append, List.cons_prefix_cons, true_and] at hp
    rw [List.append_assoc, List.singleton_append] at hp
    exact h (prefix_braces hn hm.2 s hp)

theorem splitFirst_here (n s : JsStr) : splitFirst (braces n) (braces n ++ s) = some ([], s) := by
  have e : braces n ++ s = 123 :: (n ++ [125] ++ s) := rfl
  rw [e, splitFirst, if_pos (by simp [braces]), ← e]
  simp

theorem splitFirst_pieces {n : JsStr} (hn : (125 : UInt16) ∉ n) {a : List Piece} (ha : ∀ p ∈ a, p.Ok)
    (hna : Piece.var n ∉ a) (s : JsStr) :
    splitFirst (braces n) (written a ++ s) = (splitFirst (braces n) s).map fun r => (written a ++ r.1, r.2) := by
  induction a with
  | nil => cases h : splitFirst (braces n) s <;> simp [h, written]
  | cons p a ih =>
    simp only [List.mem_cons, not_or] at hna
    have ih := ih (fun q hq => ha q (List.mem_cons_of_mem _ hq)) hna.2
    have hp := ha p (by simp)
    have e : written (p :: a) = p.write ++ written a := List.flatMap_cons ..
    rw [e, List.append_assoc]
    cases p with
    | text t =>
      rw [Piece.write, splitFirst_text hp, ih]
      cases splitFirst (braces n) s <;> simp
    | var m =>
      have : Piece.write (.var m) = braces m := rfl
      rw [this, splitFirst_var hn hp (fun h => hna.1 (by rw [h])), ih]
      cases splitFirst (braces n) s <;> simp

theorem substitution_plain {m b a v : JsStr} (h : (36 : UInt16) ∉ v) : substitution m b a v = v := by
  induction v with
  | nil => rw [substitution]
  | cons c v ih =>
    simp only [List.mem_cons, not_or] at h
    rw [substitution.eq_def]
    split
    · rename_i hh; cases hh; exact absurd rfl h.1
    · rename_i hh; cases hh; exact absurd rfl h.1
    · rename_i hh; cases hh; exact absurd rfl h.1
    · rename_i hh; cases hh; exact absurd rfl h.1
    · rename_i hh; cases hh; rw [ih h.2]
    · rename_i hh; cases hh

/-- The pattern after a value has been put in. -/
def put (n v : JsStr) (ps : List Piece) : List Piece := ps.map fun p => if p = .var n then .text v else p

theorem put_absent {n v : JsStr} {ps : List Piece} (h : Piece.var n ∉ ps) : put n v ps = ps := by
  unfold put
  conv => rhs; rw [← List.map_id ps]
  exact List.map_congr_left fun p hp => if_neg fun (e : p = .var n) => h (e ▸ hp)

theorem onceEach_split {n : JsStr} : ∀ {ps : List Piece}, OnceEach ps → Piece.var n ∈ ps →
    ∃ a b, ps = a ++ .var n :: b ∧ Piece.var n ∉ a ∧ Piece.var n ∉ b
  | [], _, h => by cases h
  | .text t :: ps, ho, h => by
    have h : Piece.var n ∈ ps := by simpa using h
    obtain ⟨a, b, rfl, ha, hb⟩ := onceEach_split (ps := ps) ho h
    exact ⟨.text t :: a, b, rfl, by simpa using ha, hb⟩
  | .var m :: ps, ho, h => by
    by_cases hm : m = n
    · subst hm; exact ⟨[], ps, rfl, by simp, ho.1⟩
    · have h : Piece.var n ∈ ps := by
        rcases List.mem_cons.1 h with h | h
        · cases h; exact absurd rfl hm
        · exact h
      obtain ⟨a, b, rfl, ha, hb⟩ := onceEach_split (ps := ps) ho.2 h
      refine ⟨.var m :: a, b, rfl, ?_, hb⟩
      simp only [List.mem_cons, not_or]
      exact ⟨fun e => hm (by cases e; rfl), ha⟩

theorem replaceFirst_put {n v : JsStr} (hn : (123 : UInt16) ∉ n ∧ (125 : UInt16) ∉ n) (hv : (36 : UInt16) ∉ v)
    {ps : List Piece} (hok : ∀ p ∈ ps, p.Ok) (ho : OnceEach ps) :
    replaceFirst (written ps) (braces n) v = written (put n v ps) := by
  unfold replaceFirst
  by_cases h : Piece.var n ∈ ps
  · obtain ⟨a, b, rfl, ha, hb⟩ := onceEach_split ho h
    have e : written (a ++ .var n :: b) = written a ++ (braces n ++ written b) := by
      unfold written; rw [List.flatMap_append, List.flatMap_cons]; rfl
    rw [e, splitFirst_pieces hn.2 (fun p hp => hok p (by simp [hp])) ha, splitFirst_here]
    simp only [Option.map_some, List.append_nil]
    rw [substitution_plain hv]
    have e2 : put n v (a ++ .var n :: b) = a ++ .text v :: b := by
      have h1 := put_absent (v := v) ha
      have h2 := put_absent (v := v) hb
      unfold put at *
      rw [List.map_append, List.map_cons, h1, h2, if_pos rfl]
    rw [e2]
    unfold written; rw [List.flatMap_append, List.flatMap_cons, List.append_assoc]; rfl
  · have := splitFirst_pieces hn.2 hok h []
    rw [splitFirst_nil, List.append_nil] at this
    rw [this, put_absent h]; rfl

theorem put_ok {n v : JsStr} (hv : (123 : UInt16) ∉ v) {ps : List Piece} (h : ∀ p ∈ ps, p.Ok) : ∀ p ∈ put n v ps, p.Ok := by
  intro p hp
  obtain ⟨q, hq, rfl⟩ := List.mem_map.1 hp
  split
  · exact hv
  · exact h q hq

theorem mem_put_var {n v m : JsStr} {ps : List Piece} (h : Piece.var m ∈ put n v ps) : Piece.var m ∈ ps := by
  obtain ⟨q, hq, e⟩ := List.mem_map.1 h
  split at e
  · cases e
  · exact e ▸ hq

theorem put_once {n v : JsStr} : ∀ {ps : List Piece}, OnceEach ps → OnceEach (put n v ps)
  | [], _ => trivial
  | .text t :: ps, h => by
    have : put n v (.text t :: ps) = .text t :: put n v ps := by
      unfold put; rw [List.map_cons, if_neg (by simp)]
    rw [this]; exact put_once (ps := ps) h
  | .var m :: ps, h => by
    by_cases hm : m = n
    · have : put n v (.var m :: ps) = .text v :: put n v ps := by
        unfold put; rw [List.map_cons, if_pos (by rw [hm])]
      rw [this]; exact put_once (ps := ps) h.2
    · have : put n v (.var m :: ps) = .var m :: put n v ps := by
        unfold put; rw [List.map_cons, if_neg fun e => hm (by cases e; rfl)]
      rw [this]; exact ⟨fun hh => h.1 (mem_put_var hh), put_once (ps := ps) h.2⟩

theorem filled_put {n v : JsStr} {values : List (JsStr × JsStr)} {ps : List Piece} :
    filled values (put n v ps) = filled ((n, v) :: values) ps := by
  unfold filled put
  rw [List.flatMap_map]
  congr 1
  funext p
  cases p with
  | text t => rw [if_neg (by simp)]; rfl
  | var m =>
    by_cases hm : m = n
    · subst hm; simp [Piece.fill]
    · rw [if_neg fun e => hm (by cases e; rfl)]
      simp only [Piece.fill, List.lookup_cons]
      rw [beq_eq_false_iff_ne.2 hm]

/-- Values that mean nothing to `replace` and to later rounds: without `$` and `{`. -/
def PlainValues (values : List (JsStr × JsStr)) : Prop :=
  ∀ v ∈ values, ((123 : UInt16) ∉ v.1 ∧ (125 : UInt16) ∉ v.1) ∧ (36 : UInt16) ∉ v.2 ∧ (123 : UInt16) ∉ v.2

/-- **C60**, expansion: a pattern in which every placeholder occurs at most once, with values without `$`
and `{`, becomes the pattern with its values. -/
theorem expand_partial {values : List (JsStr × JsStr)} (hv : PlainValues values) {ps : List Piece}
    (hok : ∀ p ∈ ps, p.Ok) (ho : OnceEach ps) : expandVars (written ps) values = filled values ps := by
  unfold expandVars
  induction values generalizing ps with
  | nil =>
    rw [List.foldl_nil]
    unfold written filled
    congr 1
  | cons v values ih =>
    obtain ⟨h1, h2, h3⟩ := hv v (by simp)
    rw [List.foldl_cons]
    have e : 123 :: v.1 ++ [125] = braces v.1 := rfl
    rw [e, replaceFirst_put h1 h2 hok ho, ih (fun w hw => hv w (List.mem_cons_of_mem _ hw)) (put_ok h3 hok) (put_once ho),
      filled_put]

/-- **C60**, the full statement for expansion. -/
def ExpandFull : Prop :=
  ∀ (values : List (JsStr × JsStr)) (ps : List Piece), (∀ p ∈ ps, p.Ok) →
    expandVars (written ps) values = filled values ps

/-- A path with `$&` in it is not what the link holds. -/
theorem not_expandFull : ¬ ExpandFull := by
  intro h
  have := h [(js b!"path", js b!"a$&b")] [.var (js b!"path")] (by decide)
  exact absurd this (by decide)

/-- A placeholder that occurs twice is replaced once. -/
example : expandVars (js b!"{a}{a}") [(js b!"a", js b!"x")] = js b!"x{a}" := by decide

/-- A file name that looks like a placeholder is replaced by a value. -/
example : expandVars (js b!"{path}@{rev}") [(js b!"path", js b!"{rev}"), (js b!"rev", js b!"1")] = js b!"1@{rev}" := by decide

example : OnceEach [.var (js b!"url"), .text (js b!"/blob/"), .var (js b!"rev")] := by decide

/-! ### The parts of a url -/

/-- The name of the file. -/
theorem baseName_of {dir name : JsStr} (h : (47 : UInt16) ∉ name) : baseName (dir ++ 47 :: name) = name := by
  unfold baseName
  have ht : ∀ u ∈ name.reverse, decide (u ≠ 47) = true := fun u hu => by
    simp only [ne_eq, decide_not, Bool.not_eq_true', decide_eq_false_iff_not]
    rintro rfl; exact h (List.mem_reverse.1 hu)
  rw [List.reverse_append, List.reverse_cons, List.append_assoc, List.takeWhile_append_of_pos ht]
  simp

theorem splitLast_of {dir name : JsStr} (h : (47 : UInt16) ∉ name) : splitLast (dir ++ 47 :: name) = some (dir, name) := by
  unfold splitLast
  rw [if_pos (by simp), baseName_of h]
  have : (dir ++ 47 :: name).length - name.length - 1 = dir.length := by simp; omega
  rw [this, List.take_left]

theorem matchRest_of {dir name : JsStr} {sep : UInt16} (hs : sep = 58 ∨ sep = 47) (h : (47 : UInt16) ∉ name) :
    matchRest (sep :: (dir ++ 47 :: name)) = some (dir, name) := by
  simp only [matchRest]; rw [if_pos hs, splitLast_of h]

theorem matchHost_step {c : UInt16} (h1 : c ≠ 58) (h2 : c ≠ 47) (s : JsStr) :
    matchHost (c :: s) = (matchHost s).map fun r => (c :: r.1, r.2) := by
  rw [matchHost]
  simp only [if_neg h1, matchPort, matchRest]
  rw [if_neg (by simp [h1, h2])]
  rfl

theorem matchHost_host {host : JsStr} (h : ∀ u ∈ host, u ≠ 58 ∧ u ≠ 47) (s : JsStr) :
    matchHost (host ++ s) = (matchHost s).map fun r => (host ++ r.1, r.2) := by
  induction host with
  | nil => cases hm : matchHost s <;> simp [hm]
  | cons c host ih =>
    obtain ⟨h1, h2⟩ := h c (by simp)
    rw [List.cons_append, matchHost_step h1 h2, ih fun u hu => h u (by simp [hu])]
    cases matchHost s <;> rfl

theorem takeWhile_head {p : UInt16 → Bool} {s : JsStr} (h : ∀ c, s.head? = some c → p c = false) : s.takeWhile p = [] := by
  cases s with
  | nil => rfl
  | cons c s => rw [List.takeWhile_cons, if_neg (by simp [h c rfl])]

/-- Without a port; after a colon the project must not begin with a digit. -/
theorem matchHost_noport {dir name : JsStr} {sep : UInt16} (hs : sep = 58 ∨ sep = 47) (h : (47 : UInt16) ∉ name)
    (hd : sep = 58 → ∀ c, (dir ++ 47 :: name).head? = some c → isDigitUnit c = false) :
    matchHost (sep :: (dir ++ 47 :: name)) = some ([], [], dir, name) := by
  rw [matchHost]
  have e : (if sep = 58 then ((dir ++ 47 :: name).takeWhile isDigitUnit).length else 0) = 0 := by
    split
    · rename_i h58; rw [takeWhile_head (hd h58)]; rfl
    · rfl
  simp only [e, matchPort, matchRest_of hs h, Option.map_some]

theorem matchHost_port {dir name digits : JsStr} {sep : UInt16} (hs : sep = 58 ∨ sep = 47) (h : (47 : UInt16) ∉ name)
    (hne : digits ≠ []) (hdig : ∀ u ∈ digits, isDigitUnit u = true) :
    matchHost (58 :: (digits ++ sep :: (dir ++ 47 :: name))) = some ([], 58 :: digits, dir, name) := by
  rw [matchHost]
  have hsep : isDigitUnit sep = false := by rcases hs with rfl | rfl <;> decide
  have e : ((digits ++ sep :: (dir ++ 47 :: name)).takeWhile isDigitUnit).length = digits.length := by
    rw [List.takeWhile_append_of_pos hdig, takeWhile_head (fun c hc => by cases hc; exact hsep), List.append_nil]
  simp only [if_true, e]
  obtain ⟨k, hk⟩ : ∃ k, digits.length = k + 1 := ⟨digits.length - 1, by
    have := List.length_pos_iff.2 hne; omega⟩
  rw [hk, matchPort]
  have e1 : (58 :: (digits ++ sep :: (dir ++ 47 :: name))).drop (k + 2) = sep :: (dir ++ 47 :: name) := by
    rw [List.drop_succ_cons, ← hk, List.drop_left]
  have e2 : (58 :: (digits ++ sep :: (dir ++ 47 :: name))).take (k + 2) = 58 :: digits := by
    rw [List.take_succ_cons, ← hk, List.take_left]
  rw [e1, e2, matchRest_of hs h]

/-- Nothing in the url looks like the user of an ssh url. -/
def NoUser (url : JsStr) : Prop := ¬ js b!"git@" <:+: url ∧ ¬ js b!"hg@" <:+: url

theorem sshParts_none : ∀ {url : JsStr}, NoUser url → sshParts url = none
  | [], _ => rfl
  | c :: s, h => by
    have h1 : ¬ js b!"git@" <+: c :: s := fun hp => h.1 hp.isInfix
    have h2 : ¬ js b!"hg@" <+: c :: s := fun hp => h.2 hp.isInfix
    rw [sshParts, if_neg h1, if_neg h2]
    exact sshParts_none ⟨fun hp => h.1 (hp.trans (List.suffix_cons c s).isInfix),
      fun hp => h.2 (hp.trans (List.suffix_cons c s).isInfix)⟩

/-- The urls of the ssh kind: `git@host:project/name`, `ssh://hg@host/project/name`,
`ssh://git@host:7999/project/name`. -/
structure SshUrl where
  scheme : Bool
  mercurial : Bool
  host : JsStr
  port : JsStr
  colon : Bool
  project : JsStr
  name : JsStr

/-- How it is written. -/
def SshUrl.write (u : SshUrl) : JsStr :=
  (if u.scheme then js b!"ssh://" else []) ++ (if u.mercurial then js b!"hg@" else js b!"git@") ++ u.host ++
    (if u.port = [] then [] else 58 :: u.port) ++ (if u.colon then js b!":" else js b!"/") ++ u.project ++ 47 :: u.name

/-- A digit. -/
abbrev IsDigit (c : UInt16) : Prop := 48 ≤ c.toNat ∧ c.toNat ≤ 57

/-- The parts are what they are called. -/
structure SshUrl.Ok (u : SshUrl) : Prop where
  host : ∀ c ∈ u.host, c ≠ 58 ∧ c ≠ 47
  port : ∀ c ∈ u.port, IsDigit c
  project : u.colon = true → u.port = [] → ∀ c, u.project.head? = some c → ¬ IsDigit c
  name : (47 : UInt16) ∉ u.name

theorem isDigitUnit_iff (c : UInt16) : isDigitUnit c = true ↔ IsDigit c := by
  rw [isDigitUnit, Bool.and_eq_true, decide_eq_true_iff, decide_eq_true_iff, UInt16.le_iff_toNat_le, UInt16.le_iff_toNat_le]
  exact Iff.rfl

theorem isDigitUnit_not {c : UInt16} (h : ¬ IsDigit c) : isDigitUnit c = false := by
  rw [← Bool.not_eq_true, isDigitUnit_iff]; exact h

theorem sshUrl_host (u : SshUrl) (h : u.Ok) :
    matchHost (u.host ++ ((if u.port = [] then [] else 58 :: u.port) ++ ((if u.colon then js b!":" else js b!"/") ++
      (u.project ++ 47 :: u.name)))) =
      some (u.host, if u.port = [] then [] else 58 :: u.port, u.project, u.name) := by
  rw [matchHost_host h.host]
  have hsep : ∃ sep : UInt16, (if u.colon then js b!":" else js b!"/") = [sep] ∧ (sep = 58 ∨ sep = 47) ∧
      (sep = 58 → u.colon = true) := by
    cases u.colon
    · exact ⟨47, rfl, Or.inr rfl, by decide⟩
    · exact ⟨58, rfl, Or.inl rfl, fun _ => rfl⟩
  obtain ⟨sep, he, hs, hc⟩ := hsep
  rw [he]
  by_cases hp : u.port = []
  · rw [if_pos hp, List.nil_append, List.singleton_append, matchHost_noport hs h.name]
    · simp
    · intro h58 c hcc
      cases hpr : u.project with
      | nil => rw [hpr] at hcc; cases hcc; decide
      | cons a t =>
        rw [hpr] at hcc; cases hcc
        exact isDigitUnit_not (h.project (hc h58) hp c (by rw [hpr]; rfl))
  · rw [if_neg hp, List.cons_append, List.singleton_append, matchHost_port hs h.name hp fun c hc => (isDigitUnit_iff c).2 (h.port c hc)]
    simp

theorem sshParts_of (u : SshUrl) (h : u.Ok) :
    sshParts u.write = some (u.host, if u.port = [] then [] else 58 :: u.port, u.project, u.name) := by
  have hh := sshUrl_host u h
  unfold SshUrl.write
  simp only [List.append_assoc]
  generalize u.host ++ ((if u.port = [] then [] else 58 :: u.port) ++ ((if u.colon then js b!":" else js b!"/") ++
      (u.project ++ 47 :: u.name))) = rest at hh
  have key : sshParts ((if u.mercurial then js b!"hg@" else js b!"git@") ++ rest) =
      some (u.host, if u.port = [] then [] else 58 :: u.port, u.project, u.name) := by
    cases u.mercurial with
    | false =>
      have e : (if false = true then js b!"hg@" else js b!"git@") ++ rest = 103 :: (js b!"it@" ++ rest) := rfl
      rw [e, sshParts, if_pos (by exact ⟨rest, rfl⟩)]
      have e2 : List.drop 4 (103 :: (js b!"it@" ++ rest)) = rest := rfl
      rw [e2, hh]
    | true =>
      have e : (if true = true then js b!"hg@" else js b!"git@") ++ rest = 104 :: (js b!"g@" ++ rest) := rfl
      have hn : ¬ js b!"git@" <+: 104 :: (js b!"g@" ++ rest) := by
        rintro ⟨t, ht⟩
        have := congrArg List.head? ht
        cases this
      rw [e, sshParts, if_neg hn, if_pos (by exact ⟨rest, rfl⟩)]
      have e2 : List.drop 3 (104 :: (js b!"g@" ++ rest)) = rest := rfl
      rw [e2, hh]
  cases u.scheme with
  | false => exact key
  | true =>
    have skip : ∀ (c : UInt16) (s : JsStr), c ≠ 103 → c ≠ 104 → sshParts (c :: s) = sshParts s := by
      intro c s h1 h2
      have n1 : ¬ js b!"git@" <+: c :: s := by
        rintro ⟨t, ht⟩; cases congrArg List.head? ht; exact h1 rfl
      have n2 : ¬ js b!"hg@" <+: c :: s := by
        rintro ⟨t, ht⟩; cases congrArg List.head? ht; exact h2 rfl
      rw [sshParts, if_neg n1, if_neg n2]
    generalize hg : (if u.mercurial then js b!"hg@" else js b!"git@") ++ rest = tail at key
    have hts : sshParts (58 :: 47 :: 47 :: tail) = sshParts tail := by
      rw [skip _ _ (by decide) (by decide), skip _ _ (by decide) (by decide), skip _ _ (by decide) (by decide)]
    have e : (if true = true then js b!"ssh://" else []) ++ tail = 115 :: 115 :: 104 :: 58 :: 47 :: 47 :: tail := rfl
    rw [e, skip _ _ (by decide) (by decide), skip _ _ (by decide) (by decide), sshParts]
    have n1 : ¬ js b!"git@" <+: 104 :: 58 :: 47 :: 47 :: tail := by
      rintro ⟨t, ht⟩; cases congrArg List.head? ht
    have n2 : ¬ js b!"hg@" <+: 104 :: 58 :: 47 :: 47 :: tail := by
      rintro ⟨t, ht⟩; cases congrArg (fun l => l.tail.head?) ht
    rw [if_neg n1, if_neg n2, hts, key]

theorem dropSuffix_of {suffix s : JsStr} : dropSuffix suffix (s ++ suffix) = s := by
  unfold dropSuffix; rw [if_pos (List.suffix_append _ _)]; simp

theorem dropSuffix_not {suffix s : JsStr} (h : ¬ suffix <:+ s) : dropSuffix suffix s = s := by
  unfold dropSuffix; rw [if_neg h]

/-- `url` is the configured url without its `.git`. -/
def Stripped (configured url : JsStr) : Prop :=
  configured = url ++ js b!".git" ∨ (configured = url ∧ ¬ js b!".git" <:+ url)

theorem stripped_eq {configured url : JsStr} (h : Stripped configured url) : dropSuffix (js b!".git") configured = url := by
  rcases h with rfl | ⟨rfl, h⟩
  · exact dropSuffix_of
  · exact dropSuffix_not h

theorem digits_plain (n : Nat) : (36 : UInt16) ∉ digitUnits n ∧ (123 : UInt16) ∉ digitUnits n := by
  have h := (Client.natDigits_numeral n).2.1
  have key : ∀ u ∈ digitUnits n, u.toNat ≤ 57 ∧ 48 ≤ u.toNat := by
    intro u hu
    obtain ⟨c, hc, rfl⟩ := List.mem_map.1 hu
    have := h c hc
    rw [UInt8.le_iff_toNat_le, UInt8.le_iff_toNat_le] at this
    simp only [UInt8.toNat_toUInt16]
    exact ⟨this.2, this.1⟩
  refine ⟨fun hm => ?_, fun hm => ?_⟩
  · have := (key _ hm).2; exact absurd this (by decide)
  · have := (key _ hm).1; exact absurd this (by decide)

theorem plain_append {s t : JsStr} (hs : PlainText s) (ht : PlainText t) : PlainText (s ++ t) := by
  unfold PlainText at *
  simp only [List.mem_append, not_or]
  exact ⟨⟨hs.1, ht.1⟩, hs.2, ht.2⟩

theorem ssh_plain {u : SshUrl} (hu : u.Ok) {path rev a : JsStr} (hv : ∀ s ∈ [u.host, u.project, u.name, path, rev, a], PlainText s) :
    ∀ s ∈ [js b!"//" ++ u.host ++ (if u.port = [] then [] else 58 :: u.port) ++ js b!"/" ++ u.project ++ js b!"/" ++ u.name,
      js b!"//" ++ u.host, if u.port = [] then [] else 58 :: u.port, u.project, u.name, path, rev, a], PlainText s := by
  have hslash : PlainText (js b!"/") := by unfold PlainText; decide
  have hslash2 : PlainText (js b!"//") := by unfold PlainText; decide
  have hport : PlainText (if u.port = [] then [] else 58 :: u.port) := by
    unfold PlainText
    split
    · simp
    · simp only [List.mem_cons, not_or]
      refine ⟨⟨by decide, fun h => ?_⟩, by decide, fun h => ?_⟩
      · exact absurd (hu.port _ h) (by decide)
      · exact absurd (hu.port _ h) (by decide)
  simp only [List.mem_cons, List.not_mem_nil, or_false, forall_eq_or_imp, forall_eq] at hv ⊢
  obtain ⟨h1, h2, h3, h4, h5, h6⟩ := hv
  refine ⟨?_, plain_append hslash2 h1, hport, h2, h3, h4, h5, h6⟩
  exact plain_append (plain_append (plain_append (plain_append (plain_append (plain_append hslash2 h1) hport) hslash) h2) hslash) h3

/-- What the placeholders stand for, put into the pattern. -/
theorem link_values {repo : LinkRepo} {ps : List Piece} (hb : repo.baseUrl = written ps) (hok : ∀ p ∈ ps, p.Ok)
    (ho : OnceEach ps) {path : JsStr} {line : Option Nat} {rev : JsStr} {u : UrlParts} (hu : urlParts repo path line rev = u)
    (hv : ∀ s ∈ [u.url, u.hostname, u.port, u.project, u.repo, u.path, u.rev, u.anchor], PlainText s) :
    urlToRepo repo path line rev = filled (linkValues u.url u.hostname u.port u.project u.repo u.path u.rev u.anchor) ps := by
  unfold urlToRepo
  rw [hb, hu, expand_partial ?_ hok ho]
  · rfl
  · intro v hm
    have e : ∀ n : JsStr, n ∈ [js b!"url", js b!"hostname", js b!"port", js b!"project", js b!"repo", js b!"path", js b!"rev",
        js b!"anchor"] → (123 : UInt16) ∉ n ∧ (125 : UInt16) ∉ n := by decide
    simp only [UrlParts.values, List.mem_cons, List.not_mem_nil, or_false] at hm
    rcases hm with rfl | rfl | rfl | rfl | rfl | rfl | rfl | rfl <;> exact ⟨e _ (by simp), hv _ (by simp)⟩

theorem isFileName_eq {path name : JsStr} (h : IsFileName path name) : baseName path = name := by
  obtain ⟨h1, rfl | ⟨dir, rfl⟩⟩ := h
  · unfold baseName
    have := List.takeWhile_append_of_pos (p := fun u : UInt16 => decide (u ≠ 47)) (l₁ := path.reverse) (l₂ := []) (by
      intro u hu
      simp only [ne_eq, decide_not, Bool.not_eq_true', decide_eq_false_iff_not]
      rintro rfl
      exact h1 (List.mem_reverse.1 hu))
    simp only [List.append_nil, List.takeWhile_nil] at this
    rw [this, List.reverse_reverse]
  · exact baseName_of h1

theorem anchor_eq {repo : LinkRepo} {path : JsStr} {line : Option Nat} {a : JsStr} : IsAnchor repo.anchor path line a →
    (match line with
      | some n => expandVars repo.anchor [(js b!"line", digitUnits n), (js b!"filename", baseName path)]
      | none => []) = a := by
  intro h
  cases line with
  | none => exact h.symm
  | some n =>
    obtain ⟨ps, name, hp, hok, ho, hn, hpl, rfl⟩ := h
    simp only
    rw [hp, isFileName_eq hn, expand_partial ?_ hok ho]
    intro v hv
    simp only [List.mem_cons, List.not_mem_nil, or_false] at hv
    rcases hv with rfl | rfl
    · exact ⟨by simp only; decide, digits_plain n⟩
    · exact ⟨by simp only; decide, hpl⟩

section
variable {repo : LinkRepo} {ps : List Piece} {path rev a : JsStr} {line : Option Nat}

/-- **C60**, links to a repository with a url that is not of the ssh kind. Missing: patterns with a placeholder more than
once, values with `$` or `{` (`not_expandFull`). -/
theorem web_link_partial {url : JsStr} (hb : repo.baseUrl = written ps) (hok : ∀ p ∈ ps, p.Ok) (ho : OnceEach ps)
    (hs : Stripped repo.url url) (hw : ¬ js b!".wiki" <:+ url) (hn : NoUser url) (ha : IsAnchor repo.anchor path line a)
    (hv : ∀ s ∈ [url, path, rev, a], PlainText s) :
    urlToRepo repo path line rev = filled (linkValues url [] [] [] [] path rev a) ps := by
  have hu : urlParts repo path line rev = ⟨url, [], [], [], [], path, rev, a⟩ := by
    unfold urlParts
    simp only [stripped_eq hs, if_neg hw, sshParts_none hn]
    exact congrArg (UrlParts.mk _ _ _ _ _ _ _) (anchor_eq ha)
  rw [link_values hb hok ho hu]
  have h0 : PlainText [] := by unfold PlainText; simp
  simp only [List.mem_cons, List.not_mem_nil, or_false, forall_eq_or_imp, forall_eq] at hv ⊢
  simp [hv, h0]

/-- **C60**, links to a repository with a url of the ssh kind: the address for the browser has the same host, port, project
and name. Missing: as for `web_link_partial`. -/
theorem ssh_link_partial (u : SshUrl) (hb : repo.baseUrl = written ps) (hok : ∀ p ∈ ps, p.Ok) (ho : OnceEach ps)
    (hs : Stripped repo.url u.write) (hw : ¬ js b!".wiki" <:+ u.write) (hu : u.Ok) (ha : IsAnchor repo.anchor path line a)
    (hv : ∀ s ∈ [u.host, u.project, u.name, path, rev, a], PlainText s) :
    let port := if u.port = [] then [] else 58 :: u.port
    urlToRepo repo path line rev =
      filled (linkValues (js b!"//" ++ u.host ++ port ++ js b!"/" ++ u.project ++ js b!"/" ++ u.name) (js b!"//" ++ u.host) port
        u.project u.name path rev a) ps := by
  intro port
  have hup : urlParts repo path line rev =
      ⟨js b!"//" ++ u.host ++ port ++ js b!"/" ++ u.project ++ js b!"/" ++ u.name, js b!"//" ++ u.host, port, u.project, u.name,
        path, rev, a⟩ := by
    unfold urlParts
    simp only [stripped_eq hs, if_neg hw, sshParts_of u hu]
    exact congrArg (UrlParts.mk _ _ _ _ _ _ _) (anchor_eq ha)
  rw [link_values hb hok ho hup]
  exact ssh_plain hu hv

/-! ### Wikis -/

/-- The first occurrence of `.wiki` in an address that ends with it and has it nowhere else. -/
theorem replace_wiki {base : JsStr} (h : ¬ js b!".wiki" <:+: base) :
    replaceFirst (base ++ js b!".wiki") (js b!".wiki") (js b!"/wiki") = base ++ js b!"/wiki" := by
  have key : splitFirst (js b!".wiki") (base ++ js b!".wiki") = some (base, []) := by
    induction base with
    | nil => decide
    | cons c base ih =>
      have hno : ¬ js b!".wiki" <+: c :: (base ++ js b!".wiki") := by
        intro hp
        rcases List.prefix_or_prefix_of_prefix hp (List.prefix_append (c :: base) (js b!".wiki")) with h1 | ⟨t, h1⟩
        · exact h h1.isInfix
        · rw [← h1] at hp
          have h2 : t <+: js b!".wiki" := by
            rw [h1] at hp
            have : c :: base ++ t <+: c :: base ++ js b!".wiki" := by rw [h1]; exact hp
            exact (List.prefix_append_right_inj _).1 this
          match base, h1 with
          | [], h1 => cases h1; exact absurd h2 (by decide)
          | [_], h1 => cases h1; exact absurd h2 (by decide)
          | [_, _], h1 => cases h1; exact absurd h2 (by decide)
          | [_, _, _], h1 => cases h1; exact absurd h2 (by decide)
          | [_, _, _, _], h1 => cases h1; exact h List.infix_rfl
          | _ :: _ :: _ :: _ :: _ :: _, h1 => cases h1
      rw [List.cons_append, splitFirst, if_neg hno, ih fun hi => h (hi.trans (List.suffix_cons c base).isInfix)]
      rfl
  unfold replaceFirst
  rw [key]
  simp only [List.append_nil]
  rw [substitution_plain (by decide)]

/-- **C60**, links to a wiki, whose url ends in `.wiki`: the address ends in `/wiki` instead, the path is without its `.md`,
and there is no anchor. Missing: as for `web_link_partial`, and urls in which `.wiki` occurs elsewhere too. -/
theorem wiki_link_partial {base page : JsStr} (hb : repo.baseUrl = written ps) (hok : ∀ p ∈ ps, p.Ok) (ho : OnceEach ps)
    (hs : Stripped repo.url (base ++ js b!".wiki")) (hw : ¬ js b!".wiki" <:+: base) (hn : NoUser (base ++ js b!"/wiki"))
    (hp : path = page ++ js b!".md" ∨ (path = page ∧ ¬ js b!".md" <:+ path))
    (hv : ∀ s ∈ [base, page, rev], PlainText s) :
    urlToRepo repo path line rev = filled (linkValues (base ++ js b!"/wiki") [] [] [] [] page rev []) ps := by
  have hpath : dropSuffix (js b!".md") path = page := by
    rcases hp with rfl | ⟨rfl, h⟩
    · exact dropSuffix_of
    · exact dropSuffix_not h
  have hu : urlParts repo path line rev = ⟨base ++ js b!"/wiki", [], [], [], [], page, rev, []⟩ := by
    unfold urlParts
    simp only [stripped_eq hs, if_pos (List.suffix_append base (js b!".wiki")), replace_wiki hw, sshParts_none hn, hpath]
  rw [link_values hb hok ho hu]
  have h0 : PlainText [] := by unfold PlainText; simp
  simp only [List.mem_cons, List.not_mem_nil, or_false, forall_eq_or_imp, forall_eq] at hv ⊢
  have h1 : PlainText (base ++ js b!"/wiki") := plain_append hv.1 (by unfold PlainText; decide)
  simp [hv, h0, h1]

/-- **C60**, links to a wiki with a url of the ssh kind, such as `git@github.com:user/Foo.wiki.git`. -/
theorem ssh_wiki_link_partial (u : SshUrl) {name page : JsStr} (hb : repo.baseUrl = written ps) (hok : ∀ p ∈ ps, p.Ok)
    (ho : OnceEach ps) (hname : u.name = name ++ js b!".wiki") (hs : Stripped repo.url u.write)
    (hw : ¬ js b!".wiki" <:+: { u with name := name }.write) (hu : u.Ok)
    (hp : path = page ++ js b!".md" ∨ (path = page ∧ ¬ js b!".md" <:+ path))
    (hv : ∀ s ∈ [u.host, u.project, name, page, rev], PlainText s) :
    let port := if u.port = [] then [] else 58 :: u.port
    urlToRepo repo path line rev =
      filled (linkValues (js b!"//" ++ u.host ++ port ++ js b!"/" ++ u.project ++ js b!"/" ++ name ++ js b!"/wiki")
        (js b!"//" ++ u.host) port (u.project ++ js b!"/" ++ name) (js b!"wiki") page rev []) ps := by
  intro port
  have hpath : dropSuffix (js b!".md") path = page := by
    rcases hp with rfl | ⟨rfl, h⟩
    · exact dropSuffix_of
    · exact dropSuffix_not h
  have hwrite : u.write = { u with name := name }.write ++ js b!".wiki" := by
    unfold SshUrl.write
    simp only [hname, List.append_assoc, List.cons_append]
  let u' : SshUrl := { u with project := u.project ++ js b!"/" ++ name, name := js b!"wiki" }
  have hwrite' : { u with name := name }.write ++ js b!"/wiki" = u'.write := by
    unfold SshUrl.write
    simp only [u', List.append_assoc, List.cons_append]
    rfl
  have hu' : u'.Ok := by
    refine ⟨hu.host, hu.port, fun h1 h2 c hc => ?_, by simp only [u']; decide⟩
    simp only [u'] at hc
    cases hpr : u.project with
    | nil => rw [hpr] at hc; cases hc; decide
    | cons x xs =>
      refine hu.project h1 h2 c ?_
      rw [hpr] at hc ⊢
      exact hc
  have hup : urlParts repo path line rev =
      ⟨js b!"//" ++ u.host ++ port ++ js b!"/" ++ (u.project ++ js b!"/" ++ name) ++ js b!"/" ++ js b!"wiki", js b!"//" ++ u.host, port,
        u.project ++ js b!"/" ++ name, js b!"wiki", page, rev, []⟩ := by
    unfold urlParts
    simp only [stripped_eq hs, hwrite, if_pos (List.suffix_append _ (js b!".wiki")), replace_wiki hw, hwrite', sshParts_of u' hu',
      hpath]
    rfl
  rw [link_values hb hok ho hup]
  · simp only [List.append_assoc]
    rfl
  · have := ssh_plain (path := page) (rev := rev) (a := []) hu' (by
      simp only [List.mem_cons, List.not_mem_nil, or_false, forall_eq_or_imp, forall_eq, u'] at hv ⊢
      refine ⟨hv.1, plain_append (plain_append hv.2.1 ?_) hv.2.2.1, ?_, hv.2.2.2.1, hv.2.2.2.2, ?_⟩
      · unfold PlainText; decide
      · unfold PlainText; decide
      · unfold PlainText; decide)
    exact this

end

/-- **C60** with the default configuration: the link of a line is the url without `.git`, then `/blob/`, the
revision, `/`, the path, `#L` and the number of the line; that of a file has nothing after the path. Paths
and revisions are without `$` and `{`. -/
theorem default_link {repo : LinkRepo} {url : JsStr} (hb : repo.baseUrl = js b!"{url}/blob/{rev}/{path}{anchor}")
    (ha : repo.anchor = js b!"#L{line}") (hs : Stripped repo.url url) (hw : ¬ js b!".wiki" <:+ url) (hn : NoUser url)
    {path rev : JsStr} (h1 : ∀ s ∈ [url, path, rev], (36 : UInt16) ∉ s ∧ (123 : UInt16) ∉ s) :
    urlToRepo repo path none rev = url ++ js b!"/blob/" ++ rev ++ js b!"/" ++ path ∧
    ∀ n, urlToRepo repo path (some n) rev =
      url ++ js b!"/blob/" ++ rev ++ js b!"/" ++ path ++ js b!"#L" ++ digitUnits n := by
  obtain ⟨name, hname⟩ : ∃ name, IsFileName path name := by
    by_cases h : (47 : UInt16) ∈ path
    · obtain ⟨as, bs, e, hn'⟩ := List.eq_append_cons_of_mem (List.mem_reverse.2 h)
      refine ⟨as.reverse, by simpa using hn', .inr ⟨bs.reverse, ?_⟩⟩
      have := congrArg List.reverse e
      simpa using this
    · exact ⟨path, h, .inl rfl⟩
  have hbase : PlainText name := by
    have hp := h1 path (by simp)
    obtain ⟨-, rfl | ⟨dir, rfl⟩⟩ := hname
    · exact hp
    · exact ⟨fun h => hp.1 (by simp [h]), fun h => hp.2 (by simp [h])⟩
  have hps : repo.baseUrl = written [.var (js b!"url"), .text (js b!"/blob/"), .var (js b!"rev"), .text (js b!"/"),
      .var (js b!"path"), .var (js b!"anchor")] := hb
  have hf : ∀ a, filled (linkValues url [] [] [] [] path rev a) [.var (js b!"url"), .text (js b!"/blob/"), .var (js b!"rev"),
      .text (js b!"/"), .var (js b!"path"), .var (js b!"anchor")] = url ++ js b!"/blob/" ++ rev ++ js b!"/" ++ path ++ a := by
    intro a
    have l1 : (linkValues url [] [] [] [] path rev a).lookup (js b!"url") = some url := rfl
    have l2 : (linkValues url [] [] [] [] path rev a).lookup (js b!"rev") = some rev := rfl
    have l3 : (linkValues url [] [] [] [] path rev a).lookup (js b!"path") = some path := rfl
    have l4 : (linkValues url [] [] [] [] path rev a).lookup (js b!"anchor") = some a := rfl
    simp only [filled, List.flatMap_cons, List.flatMap_nil, List.append_nil, Piece.fill, l1, l2, l3, l4, Option.getD_some,
      List.append_assoc]
  have hv : ∀ a, PlainText a → ∀ s ∈ [url, path, rev, a], PlainText s := by
    intro a ha s hs'
    simp only [List.mem_cons, List.not_mem_nil, or_false] at hs'
    rcases hs' with rfl | rfl | rfl | rfl
    · exact h1 _ (by simp)
    · exact h1 _ (by simp)
    · exact h1 _ (by simp)
    · exact ha
  constructor
  · rw [web_link_partial (line := none) (a := []) hps (by decide) (by decide) hs hw hn rfl (hv _ (by unfold PlainText; decide)),
      hf, List.append_nil]
  · intro n
    have hd := plain_append (s := js b!"#L") (by unfold PlainText; decide) (digits_plain n)
    rw [web_link_partial (line := some n) (a := js b!"#L" ++ digitUnits n) hps (by decide) (by decide) hs hw hn
      ⟨[.text (js b!"#L"), .var (js b!"line")], name, ha, by decide, by decide, hname, hbase, ?_⟩ (hv _ hd), hf,
      ← List.append_assoc]
    simp only [filled, List.flatMap_cons, List.flatMap_nil, List.append_nil, Piece.fill, List.lookup_cons, beq_self_eq_true,
      Option.getD_some]

/-- The page of excluded files links to a revision called `undefined`. -/
theorem excluded_link_undefined {repo : LinkRepo} {url : JsStr} (hb : repo.baseUrl = js b!"{url}/blob/{rev}/{path}{anchor}")
    (ha : repo.anchor = js b!"#L{line}") (hs : Stripped repo.url url) (hw : ¬ js b!".wiki" <:+ url) (hn : NoUser url)
    {path : JsStr} (h1 : ∀ s ∈ [url, path], (36 : UInt16) ∉ s ∧ (123 : UInt16) ∉ s) :
    excludedLink repo path = url ++ js b!"/blob/" ++ js b!"undefined" ++ js b!"/" ++ path := by
  refine (default_link hb ha hs hw hn (rev := js b!"undefined") ?_).1
  intro s hs'
  simp only [List.mem_cons, List.not_mem_nil, or_false] at hs'
  rcases hs' with rfl | rfl | rfl
  · exact h1 _ (by simp)
  · exact h1 _ (by simp)
  · decide

def exRepo : LinkRepo :=
  ⟨js b!"https://github.com/o/r.git", js b!"{url}/blob/{rev}/{path}{anchor}", js b!"#L{line}"⟩

example : Stripped exRepo.url (js b!"https://github.com/o/r") ∧ ¬ js b!".wiki" <:+ js b!"https://github.com/o/r" ∧
    NoUser (js b!"https://github.com/o/r") := ⟨Or.inl rfl, by decide, by unfold NoUser; decide⟩

example : urlToRepo exRepo (js b!"a/b.go") (some 12) (js b!"main") = js b!"https://github.com/o/r/blob/main/a/b.go#L12" := by
  decide +kernel

def exSsh : SshUrl := ⟨true, false, js b!"bitbucket.org", js b!"7999", false, js b!"Org", js b!"RepoOne"⟩

example : exSsh.write = js b!"ssh://git@bitbucket.org:7999/Org/RepoOne" := by decide
example : exSsh.Ok := ⟨by decide, by decide, by decide, by decide⟩

/-- The wiki of a repository on a host of git repositories, by ssh and by https. -/
example : urlToRepo ⟨js b!"git@github.com:u/Foo.wiki.git", js b!"{url}/{path}{anchor}", js b!"#L{line}"⟩ (js b!"Home.md") (some 3)
    (js b!"main") = js b!"//github.com/u/Foo/wiki/Home" := by decide +kernel

example : Stripped (js b!"https://github.com/u/Foo.wiki.git") (js b!"https://github.com/u/Foo" ++ js b!".wiki") ∧
    ¬ js b!".wiki" <:+: js b!"https://github.com/u/Foo" ∧ NoUser (js b!"https://github.com/u/Foo" ++ js b!"/wiki") :=
  ⟨Or.inl rfl, by decide, by unfold NoUser; decide⟩

/-- A host called `x.wiki`: its name is changed instead of the ending. -/
example : (urlParts ⟨js b!"https://x.wiki/Foo.wiki", [], []⟩ [] none []).url = js b!"https://x/wiki/Foo.wiki" := by decide +kernel

/-- A url of the short ssh kind whose project begins with a digit: its beginning is taken for a port. -/
example : (sshParts (js b!"git@h:12/p/r")).map (fun r => (r.2.1, r.2.2.1)) = some (js b!":12", js b!"p") := by decide

end Hound.Ui
