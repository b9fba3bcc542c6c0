import Verif.Model.Answer
import Verif.Spec.Text
import Verif.Spec.Terminal

/-!
# Specification: what arrives of the results of a search
-/

namespace Hound.Spec
open Wire

/-- The characters of bytes: UTF-8, with U+FFFD for every byte that does not begin a character. -/
inductive Characters : Bytes → List Rune → Prop
  | nil : Characters [] []
  | char {r : Rune} {t : Bytes} {rs : List Rune} : validRune r = true → Characters t rs →
      Characters (encodeRaw r ++ t) (r :: rs)
  | bad {b : UInt8} {t : Bytes} {rs : List Rune} : (∀ r, validRune r = true → ¬ encodeRaw r <+: b :: t) →
      Characters t rs → Characters (b :: t) (0xFFFD :: rs)

/-- A string of the server and the string the client has for it: the same characters. -/
def ClientHas (s c : Bytes) : Prop := ∃ rs, Characters s rs ∧ c = rs.flatMap encodeRaw

/-- A string of the server and the string the page has for it: the same characters. -/
def PageHas (s : Bytes) (p : Ui.JsStr) : Prop := ∃ rs, Characters s rs ∧ p = rs.flatMap Ui.units

/-- A match that was found and a match that was received, when `same` says which strings correspond. -/
structure SameLine {σ : Type} (same : Bytes → σ → Prop) (m : LineMatch) (g : GotLine σ) : Prop where
  line : same m.line g.line
  number : g.lineno = m.lineno
  before : Each same m.before g.before
  after : Each same m.after g.after

structure SameFile {σ : Type} (same : Bytes → σ → Prop) (f : FileMatch) (g : GotFile σ) : Prop where
  name : same f.filename g.filename
  lines : Each (SameLine same) f.matches_ g.matches_
  generated : g.autoGenerated = f.autoGenerated

structure SameResults {σ : Type} (same : Bytes → σ → Prop) (r : SearchResponse) (g : GotRepo σ) : Prop where
  files : Each (SameFile same) r.matches_ g.matches_
  total : g.filesWithMatch = r.filesWithMatch
  revision : same r.revision g.revision

/-- All strings of a match, of a file, of results. -/
def lineStrings (m : LineMatch) : List Bytes := m.line :: (m.before ++ m.after)
def fileStrings (f : FileMatch) : List Bytes := f.filename :: f.matches_.flatMap lineStrings
def resultStrings (r : SearchResponse) : List Bytes := r.revision :: r.matches_.flatMap fileStrings

/-- The numbers of the results are `int`s of the server (64 bits). -/
def Fits (r : SearchResponse) : Prop :=
  r.filesWithMatch < 2 ^ 63 ∧ ∀ f ∈ r.matches_, ∀ m ∈ f.matches_, m.lineno < 2 ^ 63

/-- The entries of a map of results of `searchAll`: every name once, no empty results (C29, C30), names that are text
(they come from the JSON of the configuration), numbers that are `int`s. -/
structure ResultMap (results : List (Bytes × SearchResponse)) : Prop where
  once : (results.map (·.1)).Nodup
  names : ∀ e ∈ results, ValidUtf8 e.1
  found : ∀ e ∈ results, e.2.matches_ ≠ []
  fits : ∀ e ∈ results, Fits e.2

end Hound.Spec
