import Verif.Model.Notify
import Verif.Spec.Notify
import Verif.Spec.Wire
import Verif.Proofs.JsonGrammar
import Verif.Proofs.ConfigRefuse
import Verif.Props.Api
import Verif.Props.Answer

/-!
# C79: a notification updates the repository it names
-/

namespace Hound.Notify

open Spec
open JsonText (Value)
open Config (readText readObject readMembers foldKey)

theorem said_append (name : Bytes) (a b : List (Bytes × Value Bytes)) : said name (a ++ b) = said name a ++ said name b := by
  simp [said, List.filterMap_append]

/-- A member of the notification is usable. -/
def HookRepoOk (m : Bytes × Value Bytes) : Prop :=
  (foldKey m.1 = b!"name" → TextOk m.2) ∧ (foldKey m.1 = b!"full_name" → TextOk m.2)

theorem readHookRepo_none (m : Bytes × Value Bytes) (h : Hook) : readHookRepo m h = none ↔ ¬ HookRepoOk m := by
  rw [readHookRepo]
  by_cases h0 : foldKey m.1 = b!"name"
  · rw [if_pos h0, Option.map_eq_none_iff, Config.readText_none]
    exact not_congr ⟨fun ho => ⟨fun _ => ho, fun e => absurd (h0.symm.trans e) (by decide)⟩, fun hp => hp.1 h0⟩
  rw [if_neg h0]
  by_cases h1 : foldKey m.1 = b!"full_name"
  · rw [if_pos h1, Option.map_eq_none_iff, Config.readText_none]
    exact not_congr ⟨fun ho => ⟨fun e => absurd (h1.symm.trans e) (by decide), fun _ => ho⟩, fun hp => hp.2 h1⟩
  rw [if_neg h1]
  exact ⟨fun e => (Option.some_ne_none _ e).elim, fun hn => (hn ⟨fun e => absurd e h0, fun e => absurd e h1⟩).elim⟩

theorem hookRepoOk_iff (ms : List (Bytes × Value Bytes)) :
    (∀ m ∈ ms, HookRepoOk m) ↔ SaidOk b!"name" TextOk ms ∧ SaidOk b!"full_name" TextOk ms := by
  constructor
  · intro h
    exact ⟨Config.saidOk_iff.2 fun m hm => (h m hm).1, Config.saidOk_iff.2 fun m hm => (h m hm).2⟩
  · intro h m hm
    exact ⟨Config.saidOk_iff.1 h.1 m hm, Config.saidOk_iff.1 h.2 m hm⟩

theorem readHookMember_none (m : Bytes × Value Bytes) (h : Hook) : readHookMember m h = none ↔
    ¬ (foldKey m.1 = b!"repository" → ObjectOk (fun rs => SaidOk b!"name" TextOk rs ∧ SaidOk b!"full_name" TextOk rs) m.2) := by
  rw [readHookMember]
  by_cases h0 : foldKey m.1 = b!"repository"
  · rw [if_pos h0, Config.readObject_none readHookRepo_none hookRepoOk_iff]
    exact not_congr ⟨fun ho _ => ho, fun hp => hp h0⟩
  · rw [if_neg h0]
    exact ⟨fun e => (Option.some_ne_none _ e).elim, fun hn => (hn fun e => absurd e h0).elim⟩

/-- Which bodies can be used. -/
theorem decode_ok (v : Value Bytes) : (∃ h, readObject readHookMember v {} = some h) ↔ NotificationOk v := by
  rw [NotificationOk, ← Classical.not_not (a := ObjectOk _ v),
    ← Config.readObject_none readHookMember_none (fun ms => Config.saidOk_iff.symm) v {}]
  cases readObject readHookMember v {} <;> simp

/-- What is said about the repository is read in order. -/
theorem readHook_flat : ∀ (ms : List (Bytes × Value Bytes)) {h h' : Hook}, readMembers readHookMember ms h = some h' →
    readMembers readHookRepo ((said b!"repository" ms).flatMap objectMembers) h = some h'
  | [], _, _, e => e
  | m :: ms, h, h', e => by
    rw [readMembers] at e
    obtain ⟨h1, e1, e2⟩ := Option.bind_eq_some_iff.1 e
    have ih := readHook_flat ms e2
    rw [Config.said_cons]
    rw [readHookMember] at e1
    by_cases hk : foldKey m.1 = b!"repository"
    · rw [if_pos hk] at e1 ⊢
      rw [List.flatMap_cons, Config.readMembers_append]
      have : readMembers readHookRepo (objectMembers m.2) h = some h1 := by
        cases hm : m.2 with
        | null => rw [hm] at e1; exact e1
        | obj rs => rw [hm] at e1; exact e1
        | _ => rw [hm] at e1; cases e1
      rw [this]
      exact ih
    · rw [if_neg hk] at e1 ⊢
      cases e1
      exact ih

/-- The name that is read. -/
theorem decode_name {v : Value Bytes} {h : Hook} (e : readObject readHookMember v {} = some h) : h.fullName = namedRepository v := by
  have e : readMembers readHookMember (objectMembers v) {} = some h := by
    cases v with
    | null => exact e
    | obj ms => exact e
    | _ => cases e
  have := Config.readMembers_field (f := readHookRepo) (fun h : Hook => h.fullName) b!"full_name" readText ?_ _ (readHook_flat _ e)
  · exact Config.text_said this
  · intro m s s' hf
    rw [readHookRepo] at hf
    by_cases h0 : foldKey m.1 = b!"name"
    · rw [if_pos h0] at hf
      obtain ⟨x, _, rfl⟩ := Option.map_eq_some_iff.1 hf
      exact ⟨fun e => absurd (h0.symm.trans e) (by decide), fun _ => rfl⟩
    rw [if_neg h0] at hf
    by_cases h1 : foldKey m.1 = b!"full_name"
    · rw [if_pos h1] at hf
      obtain ⟨x, hx, rfl⟩ := Option.map_eq_some_iff.1 hf
      exact ⟨fun _ => hx, fun hn => absurd h1 hn⟩
    rw [if_neg h1] at hf
    cases hf
    exact ⟨fun e => absurd e h1, fun _ => rfl⟩

/-! ## Answers -/

/-- What a client reads in the answer of the handlers. -/
theorem reports (msg : Bytes) : ∃ m, ClientHas msg m ∧ ReportsError (JsonText.encode (Wire.errorJson msg)) m := by
  refine ⟨JsonText.forClient msg, Wire.client_has msg, ?_⟩
  rw [ReportsError, JsonText.goRead_encode]
  rfl

/-- **C79**. A notification is a POST whose body is JSON that says something usable of a repository. If that repository is
configured and takes updates, the answer is `"ok"`, an update of it is pending, and nothing else has changed. If not, the answer
says so, with the name of the repository, and nothing has changed. -/
theorem notification_exact {body : Bytes} {v : Value Bytes} (hj : Rfc.IsJson body v) (hv : NotificationOk v)
    (idx : List (Bytes × Api.Srch)) :
    let n := namedRepository v
    (∀ s, idx.lookup n = some s → s.push = true → ∃ after, webhook b!"POST" body idx = ((200, b!"\"ok\"\n"), after) ∧
      ∀ r, after.lookup r = if r = n then some { s with pending := true } else idx.lookup r) ∧
    (∀ s, idx.lookup n = some s → s.push = false → ∃ text m, webhook b!"POST" body idx = ((403, text), idx) ∧
      ClientHas (b!"Push updates are not enabled for repository " ++ n) m ∧ ReportsError text m) ∧
    (idx.lookup n = none → ∃ text m, webhook b!"POST" body idx = ((404, text), idx) ∧
      ClientHas (b!"No such repository: " ++ n) m ∧ ReportsError text m) := by
  obtain ⟨h, hd⟩ := (decode_ok v).2 hv
  have hw : webhook b!"POST" body idx =
      (written (Api.handleWebhook b!"POST" (some (namedRepository v)) idx).1,
        (Api.handleWebhook b!"POST" (some (namedRepository v)) idx).2) := by
    rw [webhook, decodeHook, JsonText.goRead_json hj, Option.bind_some, hd, Option.map_some, decode_name hd]
  rw [hw]
  refine ⟨?_, ?_, ?_⟩
  · intro s hl hp
    have e : Api.handleWebhook b!"POST" (some (namedRepository v)) idx =
        (.ok, Api.setSrch (namedRepository v) { s with pending := true } idx) := by
      simp [Api.handleWebhook, hl, Api.Srch.update, hp]
    rw [e]
    refine ⟨_, rfl, fun r => ?_⟩
    rw [Api.lookup_setSrch]
    by_cases hr : r = namedRepository v
    · rw [if_pos hr, if_pos hr, hr, hl]; rfl
    · rw [if_neg hr, if_neg hr]
  · intro s hl hp
    have e : Api.handleWebhook b!"POST" (some (namedRepository v)) idx = (.forbidden (namedRepository v), idx) := by
      simp [Api.handleWebhook, hl, Api.Srch.update, hp]
    rw [e]
    obtain ⟨m, hm, hr⟩ := reports (b!"Push updates are not enabled for repository " ++ namedRepository v)
    exact ⟨_, m, rfl, hm, hr⟩
  · intro hl
    have e : Api.handleWebhook b!"POST" (some (namedRepository v)) idx = (.notFound (namedRepository v), idx) := by
      simp [Api.handleWebhook, hl]
    rw [e]
    obtain ⟨m, hm, hr⟩ := reports (b!"No such repository: " ++ namedRepository v)
    exact ⟨_, m, rfl, hm, hr⟩

/-- **C79**. JSON that says something of the wrong kind, a body that does not begin with JSON, and any other method are refused, and
nothing changes. -/
theorem notification_refused (method body : Bytes) (idx : List (Bytes × Api.Srch)) :
    (∀ v, Rfc.IsJson body v → ¬ NotificationOk v →
      ∃ text, webhook b!"POST" body idx = ((400, text), idx) ∧ ReportsError text b!"Bad Request") ∧
    (JsonText.goRead body = none →
      ∃ text, webhook b!"POST" body idx = ((400, text), idx) ∧ ReportsError text b!"Bad Request") ∧
    (method ≠ b!"POST" →
      ∃ text, webhook method body idx = ((405, text), idx) ∧ ReportsError text b!"Method Not Allowed") := by
  refine ⟨?_, ?_, ?_⟩
  · intro v hj hv
    have hd : readObject readHookMember v {} = none := by
      cases e : readObject readHookMember v {} with
      | none => rfl
      | some h => exact absurd ((decode_ok v).1 ⟨h, e⟩) hv
    refine ⟨JsonText.encode (Wire.errorJson b!"Bad Request"), ?_, by rw [ReportsError, JsonText.goRead_encode]; rfl⟩
    rw [webhook, decodeHook, JsonText.goRead_json hj, Option.bind_some, hd]
    simp [Api.handleWebhook, written]
  · intro hd
    refine ⟨JsonText.encode (Wire.errorJson b!"Bad Request"), ?_, by rw [ReportsError, JsonText.goRead_encode]; rfl⟩
    rw [webhook, decodeHook, hd]
    simp [Api.handleWebhook, written]
  · intro hm
    refine ⟨JsonText.encode (Wire.errorJson b!"Method Not Allowed"), ?_, by rw [ReportsError, JsonText.goRead_encode]; rfl⟩
    rw [webhook, (Api.update_other_method hm (fun _ => []) _ idx).2]
    rfl

/-- **C79**. A notification sent as a form, which is GitHub's other way to send it (and was once the usual one), is refused,
whatever it says. -/
theorem notification_form (payload : Bytes) (idx : List (Bytes × Api.Srch)) :
    ∃ text, webhook b!"POST" (b!"payload=" ++ payload) idx = ((400, text), idx) ∧ ReportsError text b!"Bad Request" :=
  (notification_refused b!"POST" _ idx).2.1 rfl

/-! ## Updates by name (C32) -/

/-- **C32**, as one expects it: if the answer is `"ok"`, an update of every repository named in the request is pending. -/
def UpdateNamedFull : Prop :=
  ∀ (form : Bytes → Bytes) (idx after : List (Bytes × Api.Srch)) (text : Bytes) (names : List Bytes), (idx.map (·.1)).Nodup →
    names ≠ [] → (∀ x ∈ names, (44 : UInt8) ∉ x) → form b!"repos" = joinComma names → names ≠ [b!"*"] →
    update b!"POST" form idx = ((200, text), after) → ∀ n ∈ names, ∃ s, after.lookup n = some s ∧ s.pending = true

/-- It is false: a name that is not configured (or written with a blank after the comma) is passed over. -/
theorem not_updateNamedFull : ¬ UpdateNamedFull := by
  intro h
  obtain ⟨s, hs, _⟩ := h (fun _ => b!"a, b") [(b!"a", ⟨true, false⟩), (b!"b", ⟨true, false⟩)] [(b!"a", ⟨true, true⟩), (b!"b", ⟨true, false⟩)]
    b!"\"ok\"\n" [b!"a", b!" b"] (by decide) (by decide) (by decide) rfl (by decide) (by decide +kernel) b!" b" (by decide)
  exact Option.some_ne_none _ (hs.symm.trans (by decide +kernel))

theorem allSpace_nil {v l t : Bytes} (h : AllSpace Api.spaces l) (hv : ∀ w ∈ Api.spaces, ¬ w <+: v) (e : v = l ++ t) : l = [] := by
  cases h with
  | nil => rfl
  | @cons w s hw _ => exact absurd ⟨s ++ t, by rw [e, List.append_assoc]⟩ (hv w hw)

theorem allSpace_nil_end {v t r : Bytes} (h : AllSpace Api.spaces r) : (∀ w ∈ Api.spaces, ¬ w <:+ v) → v = t ++ r → r = [] := by
  induction h generalizing t with
  | nil => exact fun _ _ => rfl
  | @cons w s hw _ ih =>
    intro hv e
    have := ih hv (t := t ++ w) (by rw [e, List.append_assoc])
    subst this
    exact absurd ⟨t, by rw [e, List.append_nil]⟩ (hv w hw)

theorem joinComma_star : ∀ {names : List Bytes}, joinComma names = b!"*" → names = [b!"*"]
  | [], h => by cases h
  | [x], h => by rw [joinComma] at h; rw [h]
  | x :: y :: r, h => by
    have : (44 : UInt8) ∈ joinComma (x :: y :: r) := by rw [joinComma]; simp
    rw [h] at this
    exact absurd this (by decide)

/-- The repositories of a list of names are the configured ones. -/
theorem named_list {α : Type} {v : Bytes} {idx : List (Bytes × α)} {names : List Bytes} (hk : (idx.map (·.1)).Nodup)
    (hne : names ≠ []) (hc : ∀ x ∈ names, (44 : UInt8) ∉ x) (hv : v = joinComma names) (hstar : names ≠ [b!"*"])
    (hs : ∀ w ∈ Api.spaces, ¬ w <+: v ∧ ¬ w <:+ v) :
    Api.parseAsRepoList v idx = names.filter fun n => decide (n ∈ idx.map (·.1)) := by
  obtain ⟨l, mid, r, he, hl, hr, _, _, h2⟩ := Api.repoList_exact v idx hk
  have e1 := allSpace_nil hl (fun w hw => (hs w hw).1) (he.trans (List.append_assoc ..))
  have e2 := allSpace_nil_end hr (fun w hw => (hs w hw).2) he
  subst e1 e2
  rw [List.nil_append, List.append_nil] at he
  exact h2 (fun e => hstar (joinComma_star (hv.symm.trans (he.trans e)))) names hne hc (hv.symm.trans he)

theorem mem_keys_of_lookup {α : Type} : ∀ {idx : List (Bytes × α)} {n : Bytes} {a : α}, idx.lookup n = some a → n ∈ idx.map (·.1)
  | [], _, _, h => by cases h
  | (k, b) :: es, n, a, h => by
    rw [List.lookup_cons] at h
    by_cases hn : n = k
    · simp [hn]
    · rw [show (n == k) = false by simpa using hn] at h
      exact List.mem_cons_of_mem _ (mem_keys_of_lookup h)

theorem lookup_of_mem_keys {α : Type} : ∀ {idx : List (Bytes × α)} {n : Bytes}, n ∈ idx.map (·.1) → ∃ a, idx.lookup n = some a
  | [], _, h => by cases h
  | (k, b) :: es, n, h => by
    rw [List.lookup_cons]
    by_cases hn : n = k
    · exact ⟨b, by simp [hn]⟩
    · rw [show (n == k) = false by simpa using hn]
      refine lookup_of_mem_keys ?_
      rcases List.mem_cons.1 h with e | e
      · exact absurd e hn
      · exact e

/-- The loop ends well, or at a repository that does not take updates. -/
theorem updateLoop_end : ∀ (l : List Bytes) (idx : List (Bytes × Api.Srch)), (∀ n ∈ l, ∃ s, idx.lookup n = some s) →
    (Api.updateLoop l idx).1 = .ok ∨
      ∃ n s, (Api.updateLoop l idx).1 = .forbidden n ∧ n ∈ l ∧ idx.lookup n = some s ∧ s.push = false
  | [], _, _ => .inl rfl
  | n :: l, idx, h => by
    obtain ⟨s, hs⟩ := h n (by simp)
    cases hp : s.push with
    | false => exact .inr ⟨n, s, by simp [Api.updateLoop, hs, Api.Srch.update, hp], by simp, hs, hp⟩
    | true =>
      have e : Api.updateLoop (n :: l) idx = Api.updateLoop l (Api.setSrch n { s with pending := true } idx) := by
        simp [Api.updateLoop, hs, Api.Srch.update, hp]
      rw [e]
      have look : ∀ r s', (Api.setSrch n { s with pending := true } idx).lookup r = some s' →
          ∃ s0, idx.lookup r = some s0 ∧ s0.push = s'.push := by
        intro r s' hr
        rw [Api.lookup_setSrch] at hr
        by_cases e : r = n
        · rw [if_pos e, e, hs] at hr
          cases hr
          exact ⟨s, e ▸ hs, rfl⟩
        · rw [if_neg e] at hr
          exact ⟨s', hr, rfl⟩
      have ih := updateLoop_end l (Api.setSrch n { s with pending := true } idx) (by
        intro r hr
        obtain ⟨s0, h0⟩ := h r (by simp [hr])
        rw [Api.lookup_setSrch]
        split
        · rename_i e; exact ⟨{ s with pending := true }, by rw [e, hs]; rfl⟩
        · exact ⟨s0, h0⟩)
      rcases ih with h1 | ⟨r, s', h1, h2, h3, h4⟩
      · exact .inl h1
      · obtain ⟨s0, h5, h6⟩ := look r s' h3
        exact .inr ⟨r, s0, h1, by simp [h2], h5, h6.trans h4⟩

/-- **C32**, for the names that are configured: if the answer is `"ok"`, an update of every one of them that is named is pending, and
the repositories not named are as before; other names are passed over. If the answer is not `"ok"`, it says which of the repositories
named does not take updates. -/
theorem update_named_partial {form : Bytes → Bytes} {idx : List (Bytes × Api.Srch)} {names : List Bytes} (hk : (idx.map (·.1)).Nodup)
    (hne : names ≠ []) (hc : ∀ x ∈ names, (44 : UInt8) ∉ x) (hv : form b!"repos" = joinComma names) (hstar : names ≠ [b!"*"])
    (hs : ∀ w ∈ Api.spaces, ¬ w <+: form b!"repos" ∧ ¬ w <:+ form b!"repos") :
    (∃ after, update b!"POST" form idx = ((200, b!"\"ok\"\n"), after) ∧
        (∀ n ∈ names, ∀ s, idx.lookup n = some s → s.push = true ∧ after.lookup n = some { s with pending := true }) ∧
        ∀ n, n ∉ names → after.lookup n = idx.lookup n) ∨
      ∃ after text m n s, update b!"POST" form idx = ((403, text), after) ∧ n ∈ names ∧ idx.lookup n = some s ∧ s.push = false ∧
        ClientHas (b!"Push updates are not enabled for repository " ++ n) m ∧ ReportsError text m := by
  have hl := named_list hk hne hc hv hstar hs
  have hu : Api.handleUpdate b!"POST" form idx = Api.updateLoop (Api.parseAsRepoList (form b!"repos") idx) idx := by
    rw [Api.handleUpdate, if_neg (by simp)]
  have hmem : ∀ n, n ∈ Api.parseAsRepoList (form b!"repos") idx ↔ n ∈ names ∧ n ∈ idx.map (·.1) := by
    intro n; rw [hl, List.mem_filter, decide_eq_true_iff]
  rcases updateLoop_end (Api.parseAsRepoList (form b!"repos") idx) idx fun n hn => lookup_of_mem_keys ((hmem n).1 hn).2 with
    h | ⟨n, s, h1, h2, h3, h4⟩
  · left
    obtain ⟨_, h1, h2⟩ := Api.update_ok (idx' := (Api.handleUpdate b!"POST" form idx).2) (Prod.ext (hu ▸ h) rfl)
    refine ⟨(Api.handleUpdate b!"POST" form idx).2, ?_, ?_, ?_⟩
    · rw [update, hu, h]; rfl
    · intro n hn s hls
      obtain ⟨s', h3, h4, h5⟩ := h1 n ((hmem n).2 ⟨hn, mem_keys_of_lookup hls⟩)
      cases hls.symm.trans h3
      exact ⟨h4, h5⟩
    · exact fun n hn => h2 n fun h => hn ((hmem n).1 h).1
  · right
    obtain ⟨m, hm, hr⟩ := reports (b!"Push updates are not enabled for repository " ++ n)
    refine ⟨(Api.handleUpdate b!"POST" form idx).2, _, m, n, s, ?_, ((hmem n).1 h2).1, h3, h4, hm, hr⟩
    rw [update, hu, h1]; rfl

/-! ## Examples -/

/-- The beginning of a body as GitHub sends it. -/
def exBody : Bytes := b!"{\"ref\": \"refs/heads/main\", \"repository\": {\"id\": 186853002, \"full_name\": \"hound/etsy\", \"private\": false}}"

def exValue : Value Bytes := .obj [(b!"ref", .str b!"refs/heads/main"),
  (b!"repository", .obj [(b!"id", .num 186853002), (b!"full_name", .str b!"hound/etsy"), (b!"private", .bool false)])]

theorem ascii_valid {n : Nat} (h : n < 127) : validRune n = true := by
  rw [validRune, show decide (n < 0xD800) = true from decide_eq_true (Nat.lt_trans h (by decide))]; rfl

theorem plain_quoted : ∀ {s : Bytes}, (∀ c ∈ s, 32 ≤ c.toNat ∧ c.toNat < 127 ∧ c.toNat ≠ 34 ∧ c.toNat ≠ 92) →
    Rfc.Chars s (s.map (·.toNat)) ∧ (s.map (·.toNat)).flatMap encodeRaw = s
  | [], _ => ⟨.nil, rfl⟩
  | c :: s, h => by
    obtain ⟨h1, h2, h3, h4⟩ := h c (by simp)
    obtain ⟨i1, i2⟩ := plain_quoted fun c hc => h c (List.mem_cons_of_mem _ hc)
    have e : encodeRaw c.toNat = [c] := by
      rw [encodeRaw, if_pos (Nat.lt_trans h2 (by decide))]; simp
    refine ⟨?_, by rw [List.map_cons, List.flatMap_cons, e, i2]; rfl⟩
    have := Rfc.Chars.plain c.toNat s _ (ascii_valid h2) h1 h3 h4 i1
    rwa [e] at this

/-- Plain text between quotation marks. -/
theorem quoted_plain (s : Bytes) (h : ∀ c ∈ s, 32 ≤ c.toNat ∧ c.toNat < 127 ∧ c.toNat ≠ 34 ∧ c.toNat ≠ 92) :
    Rfc.Quoted (34 :: (s ++ [34])) s := ⟨s, _, rfl, (plain_quoted h).1, (plain_quoted h).2.symm⟩

/-- The body is JSON for that value, by the grammar. -/
theorem exBody_json : Rfc.IsJson exBody exValue := by
  have b0 : Rfc.Blank [] := fun c hc => by cases hc
  have b1 : Rfc.Blank [32] := fun c hc => .inl (by simpa using hc)
  refine ⟨[], exBody, [], by simp, b0, ?_, b0⟩
  have repo : Rfc.Doc b!"{\"id\": 186853002, \"full_name\": \"hound/etsy\", \"private\": false}" _ :=
    .obj _ _ (.more [] _ [] [32] b!"186853002" [] _ _ _ _ b0 (quoted_plain b!"id" (by decide)) b0 b1
      (.num _ 186853002 ⟨⟨by decide, by decide, by decide⟩, by decide⟩) b0
      (.more [32] _ [] [32] _ [] _ _ _ _ b1 (quoted_plain b!"full_name" (by decide)) b0 b1
        (.str _ _ (quoted_plain b!"hound/etsy" (by decide))) b0
        (.one [32] _ [] [32] _ [] _ _ b1 (quoted_plain b!"private" (by decide)) b0 b1 .false b0)))
  exact .obj _ _ (.more [] _ [] [32] _ [] _ _ _ _ b0 (quoted_plain b!"ref" (by decide)) b0 b1
    (.str _ _ (quoted_plain b!"refs/heads/main" (by decide))) b0
    (.one [32] _ [] [32] _ [] _ _ b1 (quoted_plain b!"repository" (by decide)) b0 b1 repo b0))

example : NotificationOk exValue := (decode_ok exValue).1 ⟨⟨[], b!"hound/etsy"⟩, by decide +kernel⟩

example : namedRepository exValue = b!"hound/etsy" := by decide +kernel

/-- It is heard: the other repository is left alone. -/
example : webhook b!"POST" exBody [(b!"hound/etsy", ⟨true, false⟩), (b!"other", ⟨true, false⟩)] =
    ((200, b!"\"ok\"\n"), [(b!"hound/etsy", ⟨true, true⟩), (b!"other", ⟨true, false⟩)]) := by decide +kernel

/-- A repository that is configured by its short name is not found by notifications. -/
example : webhook b!"POST" exBody [(b!"etsy", ⟨true, false⟩)] =
    ((404, b!"{\"Error\":\"No such repository: hound/etsy\"}\n"), [(b!"etsy", ⟨true, false⟩)]) := by decide +kernel

/-- A name that is not a text. -/
example : ¬ NotificationOk (.obj [(b!"repository", .obj [(b!"full_name", .num 7)])]) := by
  intro h
  obtain ⟨h', e⟩ := (decode_ok _).2 h
  exact Option.some_ne_none _ (e.symm.trans (by decide +kernel))

/-- The hypotheses for updates by name. -/
example : (∀ w ∈ Api.spaces, ¬ w <+: b!"a,b" ∧ ¬ w <:+ b!"a,b") ∧ joinComma [b!"a", b!"b"] = b!"a,b" ∧
    update b!"POST" (fun _ => b!"a,b") [(b!"a", ⟨true, false⟩), (b!"b", ⟨false, false⟩)] =
      ((403, b!"{\"Error\":\"Push updates are not enabled for repository b\"}\n"),
        [(b!"a", ⟨true, true⟩), (b!"b", ⟨false, false⟩)]) := by decide +kernel

end Hound.Notify
