import Verif.Proofs.UrlQuery
import Verif.Props.Api
import Verif.Props.Client

/-!
# C57: the server searches for what was asked on the command line (`client/client.go`, `api/api.go`)
-/

namespace Hound.Url
open Client (fmtD)
open Spec Api

/-- What the server's handler reads from the request of the client. -/
def clientForm (host pattern repos files : Bytes) (context : Int) (ignoreCase stats : Bool) : Bytes → Bytes :=
  formValue (rawQuery (clientUrl host pattern repos files context ignoreCase stats))

theorem rawQuery_client {host : Bytes} (h1 : (35 : UInt8) ∉ host) (h2 : (63 : UInt8) ∉ host)
    (pattern repos files : Bytes) (context : Int) (ignoreCase stats : Bool) :
    rawQuery (clientUrl host pattern repos files context ignoreCase stats) = encode
      [(b!"ctx", fmtD context), (b!"files", files), (b!"i", fmtT ignoreCase), (b!"q", pattern),
        (b!"repos", repos), (b!"stats", fmtT stats)] := by
  unfold clientUrl
  have hb : b!"/api/v1/search?" = b!"/api/v1/search" ++ [63] := by decide
  rw [hb, ← List.append_assoc, List.append_assoc _ [63], List.singleton_append]
  apply rawQuery_of
  · simp only [List.mem_append, not_or]; exact ⟨⟨by decide, h1⟩, by decide⟩
  · simp only [List.mem_append, not_or]; exact ⟨⟨by decide, h2⟩, by decide⟩
  · exact encode_safe _

theorem clientForm_eq {host : Bytes} (h1 : (35 : UInt8) ∉ host) (h2 : (63 : UInt8) ∉ host)
    (pattern repos files : Bytes) (context : Int) (ignoreCase stats : Bool) (k : Bytes) :
    clientForm host pattern repos files context ignoreCase stats k =
      (([(b!"ctx", fmtD context), (b!"files", files), (b!"i", fmtT ignoreCase), (b!"q", pattern),
        (b!"repos", repos), (b!"stats", fmtT stats)] : List (Bytes × Bytes)).lookup k).getD [] := by
  unfold clientForm formValue
  rw [rawQuery_client h1 h2, parse_encode]

theorem fmtT_bool (b : Bool) : parseAsBool (fmtT b) = b := by cases b <;> decide

theorem fmtD_context (c : Int) :
    parseAsUintValue (fmtD c) 0 maxLinesOfContext defaultLinesOfContext =
      if 0 ≤ c ∧ c < 2 ^ 54 then min c.toNat 20 else 2 := by
  by_cases h0 : 0 ≤ c
  · obtain ⟨n, rfl⟩ := Int.eq_ofNat_of_zero_le h0
    by_cases h : (n : Nat) < 2 ^ 54
    · rw [if_pos ⟨h0, by omega⟩]
      exact parseAsUintValue_some (by decide) (parseUint_iff.2 ⟨Client.lineNumber_numeral n, h⟩)
    · rw [if_neg (by omega)]
      have : ∀ m, IsNumeral (fmtD n) m → 2 ^ 54 ≤ m := by
        intro m hm
        have := hm.2.2.trans (Client.lineNumber_numeral n).2.2.symm
        omega
      simp only [parseAsUintValue, parseUint_none.2 this, defaultLinesOfContext]
  · rw [if_neg (by omega)]
    have : ∀ m, IsNumeral (fmtD c) m → 2 ^ 54 ≤ m := by
      intro m hm
      exfalso
      unfold fmtD at hm
      rw [if_pos (by omega)] at hm
      exact absurd (hm.2.1 45 (List.mem_cons_self ..)) (by decide)
    simp only [parseAsUintValue, parseUint_none.2 this, defaultLinesOfContext]

/-- **C57**. Whatever the pattern, the repositories, the files, the context and the flags given on the
command line are, byte for byte, the server searches for that pattern in those repositories with those
options: the context up to 20 lines (and 2 lines if the number is negative or has more than 54 bits),
no excluded files, the default limit and all files. The host is one without `#` and `?`. -/
theorem client_request {host : Bytes} (h1 : (35 : UInt8) ∉ host) (h2 : (63 : UInt8) ∉ host)
    (pattern repos files : Bytes) (context : Int) (ignoreCase stats : Bool) (dflt : Int) :
    let form := clientForm host pattern repos files context ignoreCase stats
    form b!"q" = pattern ∧ form b!"repos" = repos ∧ parseAsBool (form b!"stats") = stats ∧
    searchOptions form dflt =
      { ignoreCase := ignoreCase
        literalSearch := false
        linesOfContext := if 0 ≤ context ∧ context < 2 ^ 54 then min context.toNat 20 else 2
        fileRegexp := files
        excludeFileRegexp := []
        offset := 0
        limit := 0
        maxResults := dflt } := by
  intro form
  have hf : ∀ k, form k = _ := clientForm_eq h1 h2 pattern repos files context ignoreCase stats
  have e1 : form b!"q" = pattern := by rw [hf]; rfl
  have e2 : form b!"repos" = repos := by rw [hf]; rfl
  have e3 : form b!"stats" = fmtT stats := by rw [hf]; rfl
  have e4 : form b!"ctx" = fmtD context := by rw [hf]; rfl
  have e5 : form b!"files" = files := by rw [hf]; rfl
  have e6 : form b!"i" = fmtT ignoreCase := by rw [hf]; rfl
  have e7 : form b!"rng" = [] := by rw [hf]; rfl
  have e8 : form b!"excludeFiles" = [] := by rw [hf]; rfl
  have e9 : form b!"literal" = [] := by rw [hf]; rfl
  have e10 : form b!"limit" = [] := by rw [hf]; rfl
  refine ⟨e1, e2, by rw [e3, fmtT_bool], ?_⟩
  unfold searchOptions
  rw [e4, e5, e6, e7, e8, e9, e10, fmtT_bool, fmtD_context]
  rfl

/-- A pattern full of characters that mean something in a url. -/
example : (clientForm b!"localhost:6080" b!"a&b=%2B;#?\n" b!"*" b!"" 30 true false) b!"q" = b!"a&b=%2B;#?\n" ∧
    (searchOptions (clientForm b!"localhost:6080" b!"a&b=%2B;#?\n" b!"*" b!"" 30 true false) 7).linesOfContext = 20 := by
  obtain ⟨h1, -, -, h4⟩ := client_request (host := b!"localhost:6080") (by decide) (by decide)
    b!"a&b=%2B;#?\n" b!"*" b!"" 30 true false 7
  exact ⟨h1, by rw [h4]; rfl⟩

example : clientUrl b!"h" b!"a b&" b!"*" b!"x+" (-1) true false =
    b!"http://h/api/v1/search?ctx=-1&files=x%2B&i=true&q=a+b%26&repos=%2A&stats=false" := by decide

end Hound.Url
