import Verif.Spec.HoundCmd
import Verif.Proofs.UrlQuery

/-!
# C71: the settings of the command `hound`
-/

namespace Hound.Cmd
open Spec Config
open JsonText (Value)

/-! ## Maps -/

theorem lookup_setKey (k v n : Bytes) : ∀ l : List (Bytes × Bytes),
    (setKey k v l).lookup n = if n = k then some v else l.lookup n
  | [] => by
    by_cases h : n = k
    · simp [setKey, h]
    · simp [setKey, List.lookup, h]
  | e :: r => by
    simp only [setKey]
    by_cases he : e.1 = k
    · rw [if_pos he]
      by_cases h : n = k
      · simp [h]
      · have hb : (n == k) = false := beq_eq_false_iff_ne.2 h
        rw [List.lookup_cons, List.lookup_cons, he, hb, if_neg h]
    · rw [if_neg he, List.lookup_cons, List.lookup_cons, lookup_setKey k v n r]
      by_cases h : n = e.1
      · rw [h]; simp only [beq_self_eq_true, if_neg he]
      · rw [beq_eq_false_iff_ne.2 h]

theorem mem_setKey {k v : Bytes} {e : Bytes × Bytes} : ∀ {l : List (Bytes × Bytes)}, e ∈ setKey k v l →
    e = (k, v) ∨ e ∈ l
  | [], h => .inl (List.mem_singleton.1 h)
  | a :: r, h => by
    simp only [setKey] at h
    split at h
    · rcases List.mem_cons.1 h with h | h
      · exact .inl h
      · exact .inr (List.mem_cons_of_mem _ h)
    · rcases List.mem_cons.1 h with h | h
      · exact .inr (h ▸ List.mem_cons_self)
      · rcases mem_setKey h with h | h
        · exact .inl h
        · exact .inr (List.mem_cons_of_mem _ h)

theorem setKey_self (k v : Bytes) : ∀ l : List (Bytes × Bytes), (k, v) ∈ setKey k v l
  | [] => List.mem_singleton.2 rfl
  | a :: r => by
    simp only [setKey]
    split
    · exact List.mem_cons_self
    · exact List.mem_cons_of_mem _ (setKey_self k v r)

theorem setKey_keeps {k v n : Bytes} : ∀ {l : List (Bytes × Bytes)}, n ∈ l.map (·.1) → n ∈ (setKey k v l).map (·.1)
  | a :: r, h => by
    simp only [setKey]
    rw [List.map_cons, List.mem_cons] at h
    split
    · rename_i hk
      rw [List.map_cons, List.mem_cons]
      rcases h with h | h
      · exact .inl (h.trans hk)
      · exact .inr h
    · rw [List.map_cons, List.mem_cons]
      rcases h with h | h
      · exact .inl h
      · exact .inr (setKey_keeps h)

theorem setKey_nodup {k v : Bytes} : ∀ {l : List (Bytes × Bytes)}, (l.map (·.1)).Nodup →
    ((setKey k v l).map (·.1)).Nodup
  | [], _ => by simp [setKey]
  | a :: r, h => by
    rw [List.map_cons, List.nodup_cons] at h
    simp only [setKey]
    split
    · rename_i hk
      rw [List.map_cons, List.nodup_cons]
      exact ⟨hk ▸ h.1, h.2⟩
    · rename_i hk
      rw [List.map_cons, List.nodup_cons]
      refine ⟨fun hm => ?_, setKey_nodup h.2⟩
      obtain ⟨e, he, e1⟩ := List.mem_map.1 hm
      rcases mem_setKey he with rfl | he
      · exact hk e1.symm
      · exact h.1 (e1 ▸ List.mem_map.2 ⟨e, he, rfl⟩)

/-! ## Decoding -/

/-- What a member says about the host. -/
def hostOf (m : Bytes × Value Bytes) : Option Bytes :=
  if foldKey m.1 = b!"host" then
    match m.2 with
    | .str v => some v
    | _ => none
  else none

/-- What a member says about headers. -/
def stepsOf (m : Bytes × Value Bytes) : List (Option (Bytes × Bytes)) :=
  if foldKey m.1 = b!"http-headers" then
    match m.2 with
    | .null => [none]
    | .obj hs => hs.map fun h => some (h.1, match h.2 with
      | .str v => v
      | _ => [])
    | _ => []
  else []

/-- One step. -/
def step (l : List (Bytes × Bytes)) : Option (Bytes × Bytes) → List (Bytes × Bytes)
  | none => []
  | some e => setKey e.1 e.2 l

theorem decodeHeaders_some : ∀ {ms : List (Bytes × Value Bytes)} {old h : List (Bytes × Bytes)},
    decodeHeaders ms old = some h → h = (ms.map fun h => some (h.1, match h.2 with
      | .str v => v
      | _ => [])).foldl step old
  | [], old, h, e => (Option.some.inj e).symm
  | (k, .str v) :: r, old, h, e => decodeHeaders_some (ms := r) e
  | (k, .null) :: r, old, h, e => decodeHeaders_some (ms := r) e
  | (k, .bool _) :: r, old, h, e => by cases e
  | (k, .num _) :: r, old, h, e => by cases e
  | (k, .arr _) :: r, old, h, e => by cases e
  | (k, .obj _) :: r, old, h, e => by cases e

theorem decodeHeaders_none : ∀ {ms : List (Bytes × Value Bytes)} {old : List (Bytes × Bytes)},
    decodeHeaders ms old = none ↔ ¬ ∀ h ∈ ms, h.2 = .null ∨ ∃ v, h.2 = .str v
  | [], old => by simp [decodeHeaders]
  | (k, .str v) :: r, old => by simp [decodeHeaders, decodeHeaders_none (ms := r)]
  | (k, .null) :: r, old => by simp [decodeHeaders, decodeHeaders_none (ms := r)]
  | (k, .bool _) :: r, old => by simp [decodeHeaders]
  | (k, .num _) :: r, old => by simp [decodeHeaders]
  | (k, .arr _) :: r, old => by simp [decodeHeaders]
  | (k, .obj _) :: r, old => by simp [decodeHeaders]

theorem names_apart : b!"host" ≠ b!"http-headers" := by decide

theorem decodeMember_some {m : Bytes × Value Bytes} {s t : Settings} (h : decodeMember m s = some t) :
    t.host = (hostOf m).getD s.host ∧ t.headers = (stepsOf m).foldl step s.headers := by
  obtain ⟨k, v⟩ := m
  simp only [decodeMember] at h
  split at h
  · rename_i hk
    have hn : foldKey k ≠ b!"host" := fun e => names_apart (e.symm.trans hk)
    simp only [hostOf, stepsOf, hn, hk, if_true, if_false]
    cases v with
    | null => cases h; exact ⟨rfl, rfl⟩
    | obj ms =>
      obtain ⟨x, hx, rfl⟩ := Option.map_eq_some_iff.1 h
      exact ⟨rfl, decodeHeaders_some hx⟩
    | _ => cases h
  · rename_i hn
    split at h
    · rename_i hk
      simp only [hostOf, stepsOf, hn, hk, if_true, if_false]
      cases v with
      | null => cases h; exact ⟨rfl, rfl⟩
      | str v => cases h; exact ⟨rfl, rfl⟩
      | _ => cases h
    · rename_i hk
      simp only [hostOf, stepsOf, hn, hk, if_false]
      cases h
      exact ⟨rfl, rfl⟩

theorem decodeMember_none {m : Bytes × Value Bytes} {s : Settings} : decodeMember m s = none ↔ ¬ GoodMember m := by
  obtain ⟨k, v⟩ := m
  simp only [decodeMember, GoodMember]
  by_cases hk : foldKey k = b!"http-headers"
  · have hn : foldKey k ≠ b!"host" := fun e => names_apart (e.symm.trans hk)
    rw [if_pos hk]
    cases v with
    | null => simp
    | obj ms =>
      rw [Option.map_eq_none_iff, decodeHeaders_none]
      refine not_congr ⟨fun h => ⟨fun e => absurd e hn, fun _ => .inr ⟨ms, rfl, h⟩⟩, fun h => ?_⟩
      rcases h.2 hk with h | ⟨hs, h1, h2⟩
      · cases h
      · cases h1; exact h2
    | _ => simp [hk]
  · rw [if_neg hk]
    by_cases hh : foldKey k = b!"host"
    · rw [if_pos hh]
      cases v with
      | null => simp
      | str v => simp [hk]
      | _ => simp [hh]
    · rw [if_neg hh]
      simp [hk, hh]

/-- The last given one, or the old one. -/
def lastOr (d : Bytes) (l : List Bytes) : Bytes := l.getLast?.getD d

theorem lastOr_append (d : Bytes) (a b : List Bytes) : lastOr d (a ++ b) = lastOr (lastOr d a) b := by
  unfold lastOr
  rw [List.getLast?_append]
  cases b.getLast? <;> simp

theorem lastOr_option (d : Bytes) (o : Option Bytes) : o.getD d = lastOr d o.toList := by
  cases o <;> rfl

theorem filterMap_cons_toList {α β : Type} (f : α → Option β) (a : α) (l : List α) :
    (a :: l).filterMap f = (f a).toList ++ l.filterMap f := by
  rw [List.filterMap_cons]
  cases f a <;> rfl

theorem decodeMembers_some : ∀ {ms : List (Bytes × Value Bytes)} {s t : Settings}, decodeMembers ms s = some t →
    t.host = lastOr s.host (ms.filterMap hostOf) ∧ t.headers = (ms.flatMap stepsOf).foldl step s.headers
  | [], s, t, h => by cases h; exact ⟨rfl, rfl⟩
  | m :: r, s, t, h => by
    obtain ⟨u, hu, ht⟩ := Option.bind_eq_some_iff.1 h
    obtain ⟨h1, h2⟩ := decodeMember_some hu
    obtain ⟨h3, h4⟩ := decodeMembers_some ht
    refine ⟨?_, ?_⟩
    · rw [h3, h1, filterMap_cons_toList, lastOr_append, lastOr_option]
    · rw [h4, h2, List.flatMap_cons, List.foldl_append]

theorem decodeMembers_none : ∀ {ms : List (Bytes × Value Bytes)} {s : Settings},
    decodeMembers ms s = none ↔ ¬ ∀ m ∈ ms, GoodMember m
  | [], s => by simp [decodeMembers]
  | m :: r, s => by
    simp only [decodeMembers]
    cases h : decodeMember m s with
    | none =>
      have := decodeMember_none.1 h
      simp [this]
    | some u =>
      have : GoodMember m := Classical.byContradiction fun hn => by
        rw [decodeMember_none.2 hn] at h; cases h
      simp [this, decodeMembers_none (ms := r)]

theorem loadFiles_some : ∀ {files : List ConfFile} {s t : Settings}, loadFiles files s = some t →
    t.host = lastOr s.host ((allMembers files).filterMap hostOf) ∧
    t.headers = ((allMembers files).flatMap stepsOf).foldl step s.headers
  | [], s, t, h => by cases h; exact ⟨rfl, rfl⟩
  | .missing :: r, s, t, h => loadFiles_some (files := r) h
  | .unreadable :: r, s, t, h => by cases h
  | .text b :: r, s, t, h => by
    simp only [loadFiles] at h
    obtain ⟨u, hu, ht⟩ := Option.bind_eq_some_iff.1 h
    obtain ⟨v, hv, hd⟩ := Option.bind_eq_some_iff.1 hu
    obtain ⟨h1, h2⟩ := loadFiles_some ht
    have hm : allMembers (.text b :: r) = fileMembers (.text b) ++ allMembers r := List.flatMap_cons ..
    rw [hm, List.filterMap_append, List.flatMap_append, List.foldl_append, lastOr_append]
    cases v with
    | null =>
      cases hd
      rw [h1, h2]
      simp only [fileMembers, hv]
      exact ⟨rfl, rfl⟩
    | obj ms =>
      obtain ⟨h3, h4⟩ := decodeMembers_some hd
      simp only [fileMembers, hv]
      rw [h1, h2, h3, h4]
      exact ⟨rfl, rfl⟩
    | _ => cases hd

theorem loadFiles_none : ∀ {files : List ConfFile} {s : Settings},
    loadFiles files s = none ↔ ∃ f ∈ files, ¬ GoodFile f
  | [], s => by simp [loadFiles]
  | .missing :: r, s => by simp [loadFiles, loadFiles_none (files := r), GoodFile]
  | .unreadable :: r, s => by simp [loadFiles, GoodFile]
  | .text b :: r, s => by
    simp only [loadFiles, List.mem_cons, exists_eq_or_imp]
    cases hv : JsonText.goRead b with
    | none => simp [GoodFile, hv]
    | some v =>
      cases v with
      | null => simp [GoodFile, hv, decodeSettings, loadFiles_none (files := r)]
      | obj ms =>
        simp only [Option.bind_some, decodeSettings, GoodFile, hv]
        cases hd : decodeMembers ms s with
        | none =>
          have := decodeMembers_none.1 hd
          simp only [Option.bind_none, true_iff]
          refine .inl ?_
          rintro (h | ⟨ms', h1, h2⟩)
          · cases h
          · cases h1; exact this h2
        | some u =>
          have : ∀ m ∈ ms, GoodMember m := Classical.byContradiction fun hn => by
            rw [decodeMembers_none.2 hn] at hd; cases hd
          rw [Option.bind_some, loadFiles_none (files := r)]
          refine ⟨.inr, fun h => h.resolve_left fun hn => hn (.inr ⟨ms, rfl, this⟩)⟩
      | _ => simp [GoodFile, hv, decodeSettings]

/-! ## C71 -/

/-- C71: the command refuses to run exactly if the user is not known or a file is there that cannot be used. -/
theorem conf_fails_iff (files : Option (List ConfFile)) (s : Settings) :
    loadConfig files s = none ↔ files = none ∨ ∃ fs, files = some fs ∧ ∃ f ∈ fs, ¬ GoodFile f := by
  cases files with
  | none => simp [loadConfig]
  | some fs => simp [loadConfig, loadFiles_none]

/-- C71: the server asked is the last one given, by the flag, by the first file, by the second file. -/
theorem host_exact {files : List ConfFile} {s t : Settings} (h : loadConfig (some files) s = some t) :
    t.host = ((hostsGiven files).getLast?).getD s.host := (loadFiles_some h).1

/-- C71: the server asked is the one of the flag `--host`. -/
def HostFlagFull : Prop := ∀ (files : List ConfFile) (s t : Settings), loadConfig (some files) s = some t → t.host = s.host

/-- C71: it is, if no file names one. -/
theorem host_flag_partial {files : List ConfFile} {s t : Settings} (h : loadConfig (some files) s = some t)
    (hn : hostsGiven files = []) : t.host = s.host := by
  rw [host_exact h, hn]; rfl

/-- A configuration file as it is meant. -/
def sampleFile : ConfFile := .text b!"{\"host\": \"hound.example\", \"http-headers\": {\"X-Team\": \"search\"}}"

theorem sample_loads : loadConfig (some [.missing, sampleFile]) ⟨[], b!"localhost:6080"⟩ =
    some ⟨[(b!"X-Team", b!"search")], b!"hound.example"⟩ := by decide +kernel

/-- C71: an address given on the command line does not count if a file has one. -/
theorem not_hostFlagFull : ¬ HostFlagFull := by
  intro h
  exact absurd (h _ _ _ sample_loads) (by decide)

example : GoodFile sampleFile := Classical.byContradiction fun h => by
  have := (conf_fails_iff (some [.missing, sampleFile]) ⟨[], b!"localhost:6080"⟩).2 (.inr ⟨_, rfl, _, by simp, h⟩)
  rw [sample_loads] at this
  cases this

example : ¬ GoodFile (.text b!"{\"host\": 7}") := fun h => by
  have := (conf_fails_iff (some [.text b!"{\"host\": 7}"]) ⟨[], []⟩).1 (by decide +kernel)
  rcases this with h1 | ⟨fs, h1, f, hf, hg⟩
  · cases h1
  · cases h1
    rw [List.mem_singleton.1 hf] at hg
    exact hg h

theorem getLast_filter_append {α : Type} (p : α → Bool) (l : List α) (a : α) :
    ((l ++ [a]).filter p).getLast? = if p a then some a else (l.filter p).getLast? := by
  rw [List.filter_append, List.getLast?_append]
  by_cases h : p a = true
  · simp [h]
  · simp [h]

theorem steps_lookup (k : Bytes) (l : List (Option (Bytes × Bytes))) :
    (l.foldl step []).lookup k = lastValue k l := by
  rw [← List.reverse_reverse l]
  generalize l.reverse = r
  induction r with
  | nil => rfl
  | cons a r ih =>
    rw [List.reverse_cons, List.foldl_append, lastValue, getLast_filter_append]
    simp only [List.foldl_cons, List.foldl_nil]
    cases a with
    | none => rfl
    | some e =>
      rw [step, lookup_setKey]
      by_cases h : k = e.1
      · simp [h]
      · rw [if_neg h, if_neg (by simpa using Ne.symm h)]
        exact ih

theorem steps_nodup (l : List (Option (Bytes × Bytes))) : ∀ {old : List (Bytes × Bytes)}, (old.map (·.1)).Nodup →
    ((l.foldl step old).map (·.1)).Nodup := by
  induction l with
  | nil => intro old h; exact h
  | cons a l ih =>
    intro old h
    rw [List.foldl_cons]
    apply ih
    cases a with
    | none => exact .nil
    | some e => exact setKey_nodup h

/-- C71: every header field has the value that was given last; `null` withdraws what was given before. -/
theorem headers_exact {files : List ConfFile} {host : Bytes} {t : Settings}
    (h : loadConfig (some files) ⟨[], host⟩ = some t) :
    (∀ k, t.headers.lookup k = lastValue k (headersGiven files)) ∧ (t.headers.map (·.1)).Nodup := by
  have e : t.headers = (headersGiven files).foldl step [] := (loadFiles_some h).2
  rw [e]
  exact ⟨fun k => steps_lookup k _, steps_nodup _ .nil⟩

/-! ## The header fields of a request -/

/-- The ASCII lower case of a byte. -/
def lowByte (c : UInt8) : UInt8 := if 65 ≤ c ∧ c ≤ 90 then c + 32 else c

theorem low_upper (c : UInt8) : lowByte (if 97 ≤ c && c ≤ 122 then c - 32 else c) = lowByte c :=
  Url.forall_u8 (P := fun c => lowByte (if 97 ≤ c && c ≤ 122 then c - 32 else c) = lowByte c) (by decide +kernel) c

theorem low_lower (c : UInt8) : lowByte (if 65 ≤ c && c ≤ 90 then c + 32 else c) = lowByte c :=
  Url.forall_u8 (P := fun c => lowByte (if 65 ≤ c && c ≤ 90 then c + 32 else c) = lowByte c) (by decide +kernel) c

theorem foldKey_canonLoop : ∀ (up : Bool) (k : Bytes), foldKey (canonLoop up k) = foldKey k
  | _, [] => rfl
  | up, c :: t => by
    have ih := foldKey_canonLoop (c == 45) t
    have h : ∀ (b : UInt8) (l : Bytes), foldKey (b :: l) = lowByte b :: foldKey l := fun _ _ => rfl
    rw [canonLoop, h, h, ih]
    cases up with
    | true => rw [if_pos rfl, low_upper]
    | false => rw [if_neg (by decide), low_lower]

/-- The name that is sent is the configured one, up to case. -/
theorem foldKey_canonical (k : Bytes) : foldKey (canonicalKey k) = foldKey k := by
  unfold canonicalKey
  split
  · exact foldKey_canonLoop _ _
  · rfl

theorem request_url (order : List (Bytes × Bytes)) : ∀ req : Request, (order.foldl addHeader req).url = req.url := by
  induction order with
  | nil => intro req; rfl
  | cons e r ih =>
    intro req
    rw [List.foldl_cons, ih]
    unfold addHeader
    split <;> rfl

theorem request_from (order : List (Bytes × Bytes)) : ∀ req : Request,
    (∀ x ∈ (order.foldl addHeader req).headers, x ∈ req.headers ∨
      ∃ e ∈ order, foldKey e.1 ≠ b!"host" ∧ x = (canonicalKey e.1, e.2)) ∧
    (∀ v, (order.foldl addHeader req).host = some v → req.host = some v ∨
      ∃ e ∈ order, foldKey e.1 = b!"host" ∧ v = e.2) := by
  induction order with
  | nil => intro req; exact ⟨fun x hx => .inl hx, fun v hv => .inl hv⟩
  | cons e r ih =>
    intro req
    rw [List.foldl_cons]
    obtain ⟨h1, h2⟩ := ih (addHeader req e)
    constructor
    · intro x hx
      rcases h1 x hx with h | ⟨e', he', h⟩
      · unfold addHeader at h
        split at h
        · exact .inl h
        · rename_i hk
          rcases mem_setKey h with h | h
          · exact .inr ⟨e, List.mem_cons_self, hk, h⟩
          · exact .inl h
      · exact .inr ⟨e', List.mem_cons_of_mem _ he', h⟩
    · intro v hv
      rcases h2 v hv with h | ⟨e', he', h⟩
      · unfold addHeader at h
        split at h
        · rename_i hk
          exact .inr ⟨e, List.mem_cons_self, hk, (Option.some.inj h).symm⟩
        · exact .inl h
      · exact .inr ⟨e', List.mem_cons_of_mem _ he', h⟩

theorem request_keeps (order : List (Bytes × Bytes)) : ∀ req : Request,
    (∀ n ∈ req.headers.map (·.1), n ∈ (order.foldl addHeader req).headers.map (·.1)) ∧
    (req.host.isSome = true → (order.foldl addHeader req).host.isSome = true) := by
  induction order with
  | nil => intro req; exact ⟨fun n h => h, id⟩
  | cons e r ih =>
    intro req
    rw [List.foldl_cons]
    obtain ⟨h1, h2⟩ := ih (addHeader req e)
    constructor
    · intro n hn
      apply h1
      unfold addHeader
      split
      · exact hn
      · exact setKey_keeps hn
    · intro hs
      apply h2
      unfold addHeader
      split
      · rfl
      · exact hs

theorem request_all (order : List (Bytes × Bytes)) : ∀ req : Request, ∀ e ∈ order,
    (foldKey e.1 ≠ b!"host" → canonicalKey e.1 ∈ (order.foldl addHeader req).headers.map (·.1)) ∧
    (foldKey e.1 = b!"host" → (order.foldl addHeader req).host.isSome = true) := by
  induction order with
  | nil => intro req e he; cases he
  | cons a r ih =>
    intro req e he
    rw [List.foldl_cons]
    rcases List.mem_cons.1 he with rfl | he
    · obtain ⟨h1, h2⟩ := request_keeps r (addHeader req e)
      constructor
      · intro hk
        apply h1
        rw [addHeader, if_neg hk]
        exact List.mem_map.2 ⟨_, setKey_self _ _ _, rfl⟩
      · intro hk
        apply h2
        rw [addHeader, if_pos hk]
        rfl
    · exact ih _ e he

/-- C71: whatever the order in which the map is visited, a request has, up to case of the names, the configured header
fields, each with one of the values configured for it, and no others; a configured `host` is the `Host` asked for. -/
theorem request_exact {headers order : List (Bytes × Bytes)} (hp : order.Perm headers) (url : Bytes) :
    (request order url).url = url ∧
    (∀ x ∈ (request order url).headers, foldKey x.1 ≠ b!"host" ∧ ∃ e ∈ headers, foldKey e.1 = foldKey x.1 ∧ e.2 = x.2) ∧
    (∀ e ∈ headers, foldKey e.1 ≠ b!"host" → ∃ x ∈ (request order url).headers, foldKey x.1 = foldKey e.1) ∧
    (∀ v, (request order url).host = some v → ∃ e ∈ headers, foldKey e.1 = b!"host" ∧ e.2 = v) ∧
    (∀ e ∈ headers, foldKey e.1 = b!"host" → (request order url).host ≠ none) := by
  refine ⟨request_url order _, fun x hx => ?_, fun e he hk => ?_, fun v hv => ?_, fun e he hk hn => ?_⟩
  · rcases (request_from order ⟨url, none, []⟩).1 x hx with h | ⟨e, he, hk, rfl⟩
    · cases h
    · rw [foldKey_canonical]
      exact ⟨hk, e, hp.mem_iff.1 he, rfl, rfl⟩
  · have := (request_all order ⟨url, none, []⟩ e (hp.mem_iff.2 he)).1 hk
    obtain ⟨x, hx, h⟩ := List.mem_map.1 this
    exact ⟨x, hx, by rw [h, foldKey_canonical]⟩
  · rcases (request_from order ⟨url, none, []⟩).2 v hv with h | ⟨e, he, hk, rfl⟩
    · cases h
    · exact ⟨e, hp.mem_iff.1 he, hk, rfl⟩
  · have := (request_all order ⟨url, none, []⟩ e (hp.mem_iff.2 he)).2 hk
    unfold request at hn
    rw [hn] at this
    cases this

theorem token_byte (c : UInt8) (h : c ∈ b!"!#$%&'*+-.^_`|~0123456789ABCDEFGHIJKLMNOPQRSTUVWXYZabcdefghijklmnopqrstuvwxyz") :
    tokenByte c = true := by
  have := Url.forall_u8 (P := fun c => c ∈ b!"!#$%&'*+-.^_`|~0123456789ABCDEFGHIJKLMNOPQRSTUVWXYZabcdefghijklmnopqrstuvwxyz" →
    tokenByte c = true) (by decide +kernel) c
  exact this h

theorem upper_low (c : UInt8) : (if 97 ≤ lowByte c && lowByte c ≤ 122 then lowByte c - 32 else lowByte c) =
    (if 97 ≤ c && c ≤ 122 then c - 32 else c) :=
  Url.forall_u8 (P := fun c => (if 97 ≤ lowByte c && lowByte c ≤ 122 then lowByte c - 32 else lowByte c) =
    (if 97 ≤ c && c ≤ 122 then c - 32 else c)) (by decide +kernel) c

theorem lower_low (c : UInt8) : (if 65 ≤ lowByte c && lowByte c ≤ 90 then lowByte c + 32 else lowByte c) =
    (if 65 ≤ c && c ≤ 90 then c + 32 else c) :=
  Url.forall_u8 (P := fun c => (if 65 ≤ lowByte c && lowByte c ≤ 90 then lowByte c + 32 else lowByte c) =
    (if 65 ≤ c && c ≤ 90 then c + 32 else c)) (by decide +kernel) c

theorem hyphen_low (c : UInt8) : (lowByte c == 45) = (c == 45) :=
  Url.forall_u8 (P := fun c => (lowByte c == 45) = (c == 45)) (by decide +kernel) c

theorem canonLoop_fold : ∀ (up : Bool) (k : Bytes), canonLoop up (foldKey k) = canonLoop up k
  | _, [] => rfl
  | up, c :: t => by
    have ih := canonLoop_fold (c == 45) t
    have h : foldKey (c :: t) = lowByte c :: foldKey t := rfl
    rw [h, canonLoop, canonLoop, hyphen_low, ih, upper_low, lower_low]

theorem canonical_eq {a b : Bytes} (ha : TokenName a) (hb : TokenName b) (h : foldKey a = foldKey b) :
    canonicalKey a = canonicalKey b := by
  have t : ∀ {k : Bytes}, TokenName k → k.all tokenByte = true := fun hk =>
    List.all_eq_true.2 fun c hc => token_byte c (hk c hc)
  rw [canonicalKey, canonicalKey, if_pos (t ha), if_pos (t hb), ← canonLoop_fold true a, h, canonLoop_fold]

theorem request_keys (order : List (Bytes × Bytes)) : ∀ req : Request, (req.headers.map (·.1)).Nodup →
    ((order.foldl addHeader req).headers.map (·.1)).Nodup := by
  induction order with
  | nil => exact fun _ h => h
  | cons e r ih =>
    intro req h
    rw [List.foldl_cons]
    refine ih _ ?_
    unfold addHeader
    split
    · exact h
    · exact setKey_nodup h

theorem nodup_map_of {α β : Type} {f : α → β} : ∀ {l : List α}, l.Nodup → (∀ a ∈ l, ∀ b ∈ l, f a = f b → a = b) →
    (l.map f).Nodup
  | [], _, _ => by simp
  | a :: l, h, hf => by
    rw [List.nodup_cons] at h
    rw [List.map_cons, List.nodup_cons]
    refine ⟨fun hm => ?_, nodup_map_of h.2 fun x hx y hy => hf x (List.mem_cons_of_mem _ hx) y (List.mem_cons_of_mem _ hy)⟩
    obtain ⟨b, hb, he⟩ := List.mem_map.1 hm
    have := hf b (List.mem_cons_of_mem _ hb) a List.mem_cons_self he
    exact h.1 (this ▸ hb)

/-- C71: no header field is sent twice, if the names are names of header fields. -/
theorem sent_once {headers order : List (Bytes × Bytes)} (url : Bytes) (hp : order.Perm headers)
    (ht : ∀ e ∈ headers, TokenName e.1) : ((request order url).headers.map fun x => foldKey x.1).Nodup := by
  have h1 := request_keys order ⟨url, none, []⟩ .nil
  have e : ((request order url).headers.map fun x => foldKey x.1) = ((request order url).headers.map (·.1)).map foldKey := by
    rw [List.map_map]
    rfl
  rw [e]
  refine nodup_map_of h1 ?_
  have from_ : ∀ k ∈ (request order url).headers.map (·.1), ∃ e ∈ headers, k = canonicalKey e.1 := by
    intro k hk
    obtain ⟨x, hx, rfl⟩ := List.mem_map.1 hk
    rcases (request_from order ⟨url, none, []⟩).1 x hx with h | ⟨e, he, _, rfl⟩
    · cases h
    · exact ⟨e, hp.mem_iff.1 he, rfl⟩
  intro a ha b hb hab
  obtain ⟨x, hx, rfl⟩ := from_ a ha
  obtain ⟨y, hy, rfl⟩ := from_ b hb
  rw [foldKey_canonical, foldKey_canonical] at hab
  exact canonical_eq (ht x hx) (ht y hy) hab

theorem entry_eq {l : List (Bytes × Bytes)} (hn : (l.map fun e => foldKey e.1).Nodup) {a b : Bytes × Bytes} (ha : a ∈ l)
    (hb : b ∈ l) (h : foldKey a.1 = foldKey b.1) : a = b := by
  induction l with
  | nil => cases ha
  | cons x r ih =>
    rw [List.map_cons, List.nodup_cons] at hn
    rcases List.mem_cons.1 ha with rfl | ha
    · rcases List.mem_cons.1 hb with rfl | hb
      · rfl
      · exact absurd (List.mem_map.2 ⟨b, hb, h.symm⟩) hn.1
    · rcases List.mem_cons.1 hb with e | hb
      · exact absurd (List.mem_map.2 ⟨a, ha, e ▸ h⟩) hn.1
      · exact ih hn.2 ha hb

/-- C71: every configured header field is sent with its configured value. -/
def HeadersSentFull : Prop := ∀ (headers order : List (Bytes × Bytes)) (url : Bytes), (headers.map (·.1)).Nodup →
  order.Perm headers → ∀ e ∈ headers, foldKey e.1 ≠ b!"host" →
    ∃ x ∈ (request order url).headers, foldKey x.1 = foldKey e.1 ∧ x.2 = e.2

/-- C71: it is, and so is the host, if no two names differ in case only. -/
theorem headers_sent_partial {headers order : List (Bytes × Bytes)} (url : Bytes)
    (hn : (headers.map fun e => foldKey e.1).Nodup) (hp : order.Perm headers) :
    (∀ e ∈ headers, foldKey e.1 ≠ b!"host" →
      ∃ x ∈ (request order url).headers, foldKey x.1 = foldKey e.1 ∧ x.2 = e.2) ∧
    ∀ e ∈ headers, foldKey e.1 = b!"host" → (request order url).host = some e.2 := by
  obtain ⟨-, h1, h2, h3, h4⟩ := request_exact hp url
  constructor
  · intro e he hk
    obtain ⟨x, hx, h⟩ := h2 e he hk
    obtain ⟨-, e', he', h5, h6⟩ := h1 x hx
    have := entry_eq hn he he' (h.symm.trans h5.symm)
    subst this
    exact ⟨x, hx, h, h6.symm⟩
  · intro e he hk
    cases hv : (request order url).host with
    | none => exact absurd hv (h4 e he hk)
    | some v =>
      obtain ⟨e', he', h5, h6⟩ := h3 v hv
      have := entry_eq hn he he' (hk.trans h5.symm)
      subst this
      rw [h6]

/-- C71: of two names that differ in case only, chance decides which value is sent. -/
theorem headers_by_chance : ∃ headers order order' : List (Bytes × Bytes), (headers.map (·.1)).Nodup ∧
    order.Perm headers ∧ order'.Perm headers ∧
    (request order b!"http://h/").headers = [(b!"X-Token", b!"old")] ∧
    (request order' b!"http://h/").headers = [(b!"X-Token", b!"new")] :=
  ⟨[(b!"X-Token", b!"old"), (b!"x-token", b!"new")], [(b!"x-token", b!"new"), (b!"X-Token", b!"old")],
    [(b!"X-Token", b!"old"), (b!"x-token", b!"new")], by decide, .swap .., .refl _, by decide, by decide⟩

theorem not_headersSentFull : ¬ HeadersSentFull := by
  intro h
  obtain ⟨x, hx, -, hv⟩ := h [(b!"X-Token", b!"old"), (b!"x-token", b!"new")]
    [(b!"X-Token", b!"old"), (b!"x-token", b!"new")] b!"http://h/" (by decide) (.refl _) (b!"X-Token", b!"old")
    (by simp) (by decide)
  have e : (request [(b!"X-Token", b!"old"), (b!"x-token", b!"new")] b!"http://h/").headers =
    [(b!"X-Token", b!"new")] := by decide
  rw [e] at hx
  rw [List.mem_singleton.1 hx] at hv
  exact absurd hv (by decide)

example : ((request [(b!"X-Zone", b!"a"), (b!"x-zone", b!"b"), (b!"x-team", b!"c")] b!"http://h/").headers.map
    fun x => foldKey x.1).Nodup := sent_once _ (.refl _) (by simp only [TokenName]; decide)

example : request [(b!"HOST", b!"hound.internal"), (b!"x-team", b!"search")] b!"http://h/" =
    ⟨b!"http://h/", some b!"hound.internal", [(b!"X-Team", b!"search")]⟩ := by decide

end Hound.Cmd
