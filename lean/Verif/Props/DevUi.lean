import Verif.Proofs.DevUi
/-!
# C104: while the pages are worked on, a page shows its template as it is
-/

namespace Hound.DevUi

/-- **C104, in full.** In development mode, the answer to a request for a page is what its template, as it was at
some moment between the arrival of the request and the answer, gives. -/
def ShownFull : Prop :=
  ∀ (T : Type) (E : Engine T) (env : Env) (f0 : Bytes → Option Bytes) (a b c : List Ev) (s : St T) (r : Nat)
    (p host source : Bytes) (out : Option Bytes),
    Steps E env (start f0) (a ++ (.arrive r p host :: (b ++ (.answer r out :: c)))) s → (p, source) ∈ pages →
    ∃ m, m <+: b ∧ out = shown E p (fileAt f0 (a ++ (.arrive r p host :: m)) p)
      ⟨b!"0.12.2", env.repos, env.title, source, host⟩

/-- **C104.** It is if no other request for the page is open when it arrives (whatever arrives later). Missing: requests
that arrive while another one for the same page is open. -/
theorem shown_partial {T : Type} (E : Engine T) (env : Env) (f0 : Bytes → Option Bytes) (a b c : List Ev) (s : St T)
    (r : Nat) (p host source : Bytes) (out : Option Bytes)
    (h : Steps E env (start f0) (a ++ (.arrive r p host :: (b ++ (.answer r out :: c)))) s) (hp : (p, source) ∈ pages)
    (hi : Idle p a) :
    ∃ m, m <+: b ∧ out = shown E p (fileAt f0 (a ++ (.arrive r p host :: m)) p)
      ⟨b!"0.12.2", env.repos, env.title, source, host⟩ := by
  obtain ⟨srcs, hc, rfl⟩ := contents_some hp
  obtain ⟨m, hm, ho⟩ := answer_since (z := a) (w := .arrive r p host :: b) (c := c) (by simpa using h) hi
    (List.mem_cons_self ..) hc
  cases m with
  | nil =>
    refine ⟨[], List.nil_prefix, ?_⟩
    rw [ho, List.append_nil, fileAt_append]
    rfl
  | cons e m =>
    obtain ⟨rfl, hm'⟩ := List.cons_prefix_cons.1 hm
    exact ⟨m, hm', ho⟩

/-- **C104.** With any number of open requests: the answer is what the template, as it was at some moment since no
request for the page was open, gives. -/
theorem shown_since {T : Type} (E : Engine T) (env : Env) (f0 : Bytes → Option Bytes) (z w c : List Ev) (s : St T)
    (r : Nat) (p host source : Bytes) (out : Option Bytes)
    (h : Steps E env (start f0) (z ++ (w ++ (.answer r out :: c))) s) (hp : (p, source) ∈ pages) (hi : Idle p z)
    (ha : Ev.arrive r p host ∈ w) :
    ∃ m, m <+: w ∧ out = shown E p (fileAt f0 (z ++ m) p) ⟨b!"0.12.2", env.repos, env.title, source, host⟩ := by
  obtain ⟨srcs, hc, rfl⟩ := contents_some hp
  exact answer_since h hi ha hc

/-- A template that is not edited. -/
theorem fileAt_unedited (f0 : Bytes → Option Bytes) (p : Bytes) :
    ∀ m : List Ev, (∀ f, Ev.edit p f ∉ m) → fileAt f0 m p = f0 p := by
  intro m
  induction m generalizing f0 with
  | nil => intro _; rfl
  | cons e m ih =>
    intro h
    have ih := fun f0 => ih f0 fun f hf => h f (List.mem_cons_of_mem _ hf)
    cases e with
    | edit q f =>
      have hq : p ≠ q := by rintro rfl; exact h f (List.mem_cons_self ..)
      exact (ih _).trans (if_neg hq)
    | arrive => exact ih _
    | answer => exact ih _
    | inside => exact ih _

/-- **C104.** If the template has not been edited since a moment when no request for the page was open, every answer
shows it as it is, however many requests there are. -/
theorem shown_unedited {T : Type} (E : Engine T) (env : Env) (f0 : Bytes → Option Bytes) (z w c : List Ev) (s : St T)
    (r : Nat) (p host source : Bytes) (out : Option Bytes)
    (h : Steps E env (start f0) (z ++ (w ++ (.answer r out :: c))) s) (hp : (p, source) ∈ pages) (hi : Idle p z)
    (ha : Ev.arrive r p host ∈ w) (hw : ∀ f, Ev.edit p f ∉ w) :
    out = shown E p (fileAt f0 z p) ⟨b!"0.12.2", env.repos, env.title, source, host⟩ := by
  obtain ⟨m, hm, ho⟩ := shown_since E env f0 z w c s r p host source out h hp hi ha
  rw [ho, fileAt_append, fileAt_unedited _ _ m fun f hf => hw f (hm.subset hf)]

/-- **C104.** All other addresses give what the file server gives. -/
theorem other_addresses {T : Type} (E : Engine T) (env : Env) (f0 : Bytes → Option Bytes) (w c : List Ev) (s : St T)
    (r : Nat) (p host : Bytes) (out : Option Bytes) (h : Steps E env (start f0) (w ++ (.answer r out :: c)) s)
    (hp : ∀ source, (p, source) ∉ pages) (ha : Ev.arrive r p host ∈ w) : out = env.static p :=
  static_answer h ha (contents_none hp)

/-! ## The defect -/

/-- A template is its text, a page the text with the name of the server; there is no template for the empty text. -/
def caseE : Engine Bytes :=
  ⟨fun _ f => match f with | some (c :: t) => some (c :: t) | _ => none, fun t d => some (t ++ d.host)⟩

def caseEnv : Env := ⟨b!"Hound", b!"{}", fun _ => none⟩

def caseFile : Bytes → Option Bytes := fun _ => some b!"old"

/-- Request 0 reads the old template; the template is edited; request 1 comes, reads the new one and keeps it; request 0
keeps the old one; request 1 shows it. -/
def caseTrace (f f' : Option Bytes) (out : Option Bytes) : List Ev :=
  [.arrive 0 b!"/" b!"a", .edit b!"/" f, .inside, .edit b!"/" f', .arrive 1 b!"/" b!"b", .inside, .inside, .inside,
    .answer 1 out]

theorem case_steps (f : Option Bytes) (t' : UInt8) (t : Bytes) (out : Option Bytes)
    (ho : out = (caseE.parse b!"/" f).bind fun x => caseE.run x (dataFor caseEnv [b!"js/hound.js"] b!"b")) :
    ∃ s, Steps caseE caseEnv (start caseFile) (caseTrace f (some (t' :: t)) out) s := by
  let s0 : St Bytes := start caseFile
  have h1 : Steps caseE caseEnv s0 [] s0 := .refl
  have h2 := h1.step (.arrive 0 b!"/" b!"a" rfl)
  have h3 := h2.step (.edit b!"/" f)
  have h4 := h3.step (.parse 0 b!"/" b!"a" [b!"js/hound.js"] rfl rfl)
  have h5 := h4.step (.edit b!"/" (some (t' :: t)))
  have h6 := h5.step (.arrive 1 b!"/" b!"b" rfl)
  have h7 := h6.step (.parse 1 b!"/" b!"b" [b!"js/hound.js"] rfl rfl)
  have h8 := h7.step (.store 1 b!"/" b!"b" (some (t' :: t)) rfl)
  have h9 := h8.step (.store 0 b!"/" b!"a" (caseE.parse b!"/" f) rfl)
  have h10 := h9.step (.execute 1 b!"/" b!"b" [b!"js/hound.js"] rfl rfl)
  subst ho
  exact ⟨_, h10⟩

/-- **C104 is false in full**: a template that was replaced before the request came is shown. -/
theorem not_shownFull : ¬ ShownFull := by
  intro h
  obtain ⟨s, hs⟩ := case_steps (some b!"old") 110 b!"ew" _ rfl
  obtain ⟨m, hm, ho⟩ := h Bytes caseE caseEnv caseFile
    [.arrive 0 b!"/" b!"a", .edit b!"/" (some b!"old"), .inside, .edit b!"/" (some b!"new")]
    [.inside, .inside, .inside] [] s 1 b!"/" b!"b" _ _ hs (List.mem_cons_self ..)
  rw [show fileAt caseFile (_ ++ (.arrive 1 b!"/" b!"b" :: m)) b!"/" = some b!"new" from by
    rw [fileAt_append]
    refine (fileAt_unedited _ _ m fun f hf => ?_).trans rfl
    have := hm.subset hf
    simp at this] at ho
  exact absurd ho (by decide)

/-- A page whose template has no error while the request is open is shown. -/
def AnsweredFull : Prop :=
  ∀ (T : Type) (E : Engine T) (env : Env) (f0 : Bytes → Option Bytes) (a b c : List Ev) (s : St T) (r : Nat)
    (p host source : Bytes) (out : Option Bytes),
    Steps E env (start f0) (a ++ (.arrive r p host :: (b ++ (.answer r out :: c)))) s → (p, source) ∈ pages →
    (∀ m, m <+: b → (shown E p (fileAt f0 (a ++ (.arrive r p host :: m)) p)
      ⟨b!"0.12.2", env.repos, env.title, source, host⟩).isSome) → out.isSome

/-- **C104.** It is if no other request for the page is open when it arrives. -/
theorem answered_partial {T : Type} (E : Engine T) (env : Env) (f0 : Bytes → Option Bytes) (a b c : List Ev) (s : St T)
    (r : Nat) (p host source : Bytes) (out : Option Bytes)
    (h : Steps E env (start f0) (a ++ (.arrive r p host :: (b ++ (.answer r out :: c)))) s) (hp : (p, source) ∈ pages)
    (hi : Idle p a)
    (hg : ∀ m, m <+: b → (shown E p (fileAt f0 (a ++ (.arrive r p host :: m)) p)
      ⟨b!"0.12.2", env.repos, env.title, source, host⟩).isSome) : out.isSome := by
  obtain ⟨m, hm, ho⟩ := shown_partial E env f0 a b c s r p host source out h hp hi
  rw [ho]
  exact hg m hm

/-- **C104 is false in full**: another request that found an error, in a template that has been repaired since,
makes a request fail that found none. -/
theorem not_answeredFull : ¬ AnsweredFull := by
  intro h
  obtain ⟨s, hs⟩ := case_steps none 110 b!"ew" _ rfl
  have := h Bytes caseE caseEnv caseFile
    [.arrive 0 b!"/" b!"a", .edit b!"/" none, .inside, .edit b!"/" (some b!"new")]
    [.inside, .inside, .inside] [] s 1 b!"/" b!"b" _ _ hs (List.mem_cons_self ..) (by
      intro m hm
      rw [show fileAt caseFile (_ ++ (.arrive 1 b!"/" b!"b" :: m)) b!"/" = some b!"new" from by
        rw [fileAt_append]
        refine (fileAt_unedited _ _ m fun f hf => ?_).trans rfl
        have := hm.subset hf
        simp at this]
      rfl)
  exact absurd this (by decide)

/-! ## Cases -/

/-- A request alone, with an edit before its template is read and one after. -/
theorem case_alone : ∃ s, Steps caseE caseEnv (start caseFile)
    ([.edit b!"/" (some b!"one")] ++ (.arrive 0 b!"/" b!"a" :: ([.edit b!"/" (some b!"two"), .inside,
      .edit b!"/" (some b!"three"), .inside] ++ (.answer 0 (some b!"twoa") :: [])))) s := by
  let s0 : St Bytes := start caseFile
  have h1 : Steps caseE caseEnv s0 [] s0 := .refl
  have h2 := h1.step (.edit b!"/" (some b!"one"))
  have h3 := h2.step (.arrive 0 b!"/" b!"a" rfl)
  have h4 := h3.step (.edit b!"/" (some b!"two"))
  have h5 := h4.step (.parse 0 b!"/" b!"a" [b!"js/hound.js"] rfl rfl)
  have h6 := h5.step (.edit b!"/" (some b!"three"))
  have h7 := h6.step (.store 0 b!"/" b!"a" (some b!"two") rfl)
  have h8 := h7.step (.execute 0 b!"/" b!"a" [b!"js/hound.js"] rfl rfl)
  exact ⟨_, h8⟩

/-- `shown_partial` on it: the text is that of a template of its time. -/
example : ∃ m, m <+: [Ev.edit b!"/" (some b!"two"), .inside, .edit b!"/" (some b!"three"), .inside] ∧
    some b!"twoa" = shown caseE b!"/" (fileAt caseFile ([.edit b!"/" (some b!"one")] ++ (.arrive 0 b!"/" b!"a" :: m)) b!"/")
      ⟨b!"0.12.2", caseEnv.repos, caseEnv.title, b!"<script src=\"http://localhost:8080/ui/js/hound.js\"></script>",
        b!"a"⟩ := by
  obtain ⟨s, hs⟩ := case_alone
  exact shown_partial caseE caseEnv caseFile _ _ _ s 0 b!"/" b!"a" _ _ hs (List.mem_cons_self ..)
    (by intro r h hm; simp at hm)

/-- Two requests at a time: the first reads the template, the second shows what the first has kept. -/
theorem case_two : ∃ s, Steps caseE caseEnv (start caseFile)
    ([.edit b!"/" (some b!"one")] ++ ([.arrive 0 b!"/" b!"a", .inside, .arrive 1 b!"/" b!"b", .inside, .inside, .inside] ++
      (.answer 1 (some b!"oneb") :: []))) s := by
  let s0 : St Bytes := start caseFile
  have h1 : Steps caseE caseEnv s0 [] s0 := .refl
  have h2 := h1.step (.edit b!"/" (some b!"one"))
  have h3 := h2.step (.arrive 0 b!"/" b!"a" rfl)
  have h4 := h3.step (.parse 0 b!"/" b!"a" [b!"js/hound.js"] rfl rfl)
  have h5 := h4.step (.arrive 1 b!"/" b!"b" rfl)
  have h6 := h5.step (.parse 1 b!"/" b!"b" [b!"js/hound.js"] rfl rfl)
  have h7 := h6.step (.store 1 b!"/" b!"b" (some b!"one") rfl)
  have h8 := h7.step (.store 0 b!"/" b!"a" (some b!"one") rfl)
  have h9 := h8.step (.execute 1 b!"/" b!"b" [b!"js/hound.js"] rfl rfl)
  exact ⟨_, h9⟩

/-- `shown_unedited` on it. -/
example : some b!"oneb" = shown caseE b!"/" (fileAt caseFile [.edit b!"/" (some b!"one")] b!"/")
    ⟨b!"0.12.2", caseEnv.repos, caseEnv.title, b!"<script src=\"http://localhost:8080/ui/js/hound.js\"></script>",
      b!"b"⟩ := by
  obtain ⟨s, hs⟩ := case_two
  exact shown_unedited caseE caseEnv caseFile _ _ _ s 1 b!"/" b!"b" _ _ hs (List.mem_cons_self ..)
    (by intro r h hm; simp at hm) (by simp) (by simp)

/-- `shown_since` on the history of the defect. -/
example : ∃ m, m <+: (caseTrace (some b!"old") (some b!"new") none).dropLast ∧
    some b!"oldb" = shown caseE b!"/" (fileAt caseFile ([] ++ m) b!"/") ⟨b!"0.12.2", caseEnv.repos, caseEnv.title,
      b!"<script src=\"http://localhost:8080/ui/js/hound.js\"></script>", b!"b"⟩ := by
  obtain ⟨s, hs⟩ := case_steps (some b!"old") 110 b!"ew" (some b!"oldb") (by decide)
  exact shown_since caseE caseEnv caseFile [] (caseTrace (some b!"old") (some b!"new") none).dropLast [] s 1 b!"/" b!"b"
    _ _ hs (List.mem_cons_self ..) (by intro r h hm; cases hm) (by simp [caseTrace])

/-- There are other addresses. -/
example : ∀ source, (b!"/js/hound.js", source) ∉ pages := by
  intro source h
  simp [pages] at h

end Hound.DevUi
