import Verif.Model.PageStart
import Verif.Spec.Wire

/-!
# Specification: what the page is to know and to show when it starts
-/

namespace Hound.Spec
open Boot

/-- The page has the address, the display name and the templates for links of a repository. -/
structure Knows (r : Config.Repo) (p : PageRepo) : Prop where
  url : PageHas r.url p.url
  name : PageHas r.displayName p.displayName
  links : ∃ u, r.urlPattern = some u ∧ PageHas u.baseUrl p.baseUrl ∧ PageHas u.anchor p.anchor

/-- The repositories of a loaded configuration, or some of them: every name once, names that are text, templates for
links. -/
structure Servable (repos : List (Bytes × Config.Repo)) : Prop where
  once : (repos.map (·.1)).Nodup
  names : ∀ e ∈ repos, ValidUtf8 e.1
  links : ∀ e ∈ repos, e.2.urlPattern ≠ none

/-- The page knows these repositories and no others, each once. -/
structure KnowsAll (repos : List (Bytes × Config.Repo)) (known : List (Ui.JsStr × PageRepo)) : Prop where
  once : (known.map (·.1)).Nodup
  every : ∀ n r, (n, r) ∈ repos → ∃ k p, (k, p) ∈ known ∧ PageHas n k ∧ Knows r p
  only : ∀ k p, (k, p) ∈ known → ∃ n r, (n, r) ∈ repos ∧ PageHas n k ∧ Knows r p

/-- The character references that can occur in a title, and what they stand for (HTML standard). -/
def references : List (Bytes × UInt8) :=
  [(b!"&#34;", 34), (b!"&amp;", 38), (b!"&#39;", 39), (b!"&#43;", 43), (b!"&lt;", 60), (b!"&gt;", 62)]

/-- The text a browser shows for a piece of HTML without tags. -/
inductive ReadAs : Bytes → Bytes → Prop
  | nil : ReadAs [] []
  | plain {c : UInt8} {h t : Bytes} : c ≠ 38 → c ≠ 60 → c ≠ 0 → ReadAs h t → ReadAs (c :: h) (c :: t)
  | reference {name : Bytes} {c : UInt8} {h t : Bytes} : (name, c) ∈ references → ReadAs h t → ReadAs (name ++ h) (c :: t)

/-- A page cannot contain the character NUL; U+FFFD stands for it. -/
def nulReplaced (s : Bytes) : Bytes := s.flatMap fun c => if c = 0 then [0xEF, 0xBF, 0xBD] else [c]

/-- A text without an ending `.git`. -/
def NoGit (s t : Ui.JsStr) : Prop := s = t ++ Ui.js b!".git" ∨ (t = s ∧ ¬ Ui.js b!".git" <:+ s)

/-- The name of a repository that has no display name: the last two parts of its address, or the last one if there is
no other, or the name in the configuration if there are no parts. -/
inductive UrlName (key : Ui.JsStr) : Ui.JsStr → Ui.JsStr → Prop
  | whole {u : Ui.JsStr} : 47 ∉ u → UrlName key u key
  | one {a b b' : Ui.JsStr} : 47 ∉ a → 47 ∉ b → NoGit b b' → UrlName key (a ++ 47 :: b) b'
  | two {a b c c' : Ui.JsStr} : 47 ∉ b → 47 ∉ c → NoGit c c' →
      UrlName key (a ++ 47 :: (b ++ 47 :: c)) (b ++ Ui.js b!" / " ++ c')

end Hound.Spec
