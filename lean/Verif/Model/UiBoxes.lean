import Verif.Model.Basic

/-!
# The boxes of the result page that can be opened and closed (`ui/assets/js/hound.js`)

Every file with matches has a box, which shows its lines if it is open (`FileContentView`), and every repository has one
around the boxes of its files (`RepoView`); only the boxes of files hide anything (`ui/assets/css/hound.css`). React: a
`setState` in a handler of a React event takes effect when the event has been handled, so all handlers of one event read the
state from before it; children in an array are matched by their index, a child that was there keeps its state, a new one gets
`getInitialState`, and what is not rendered any more loses its state.
-/

namespace Hound.Ui

/-- The states of a `RepoView` and of the `FileContentView`s in it. (for ui/assets/js/hound.js:727-926) -/
structure RepoBox where
  isOpen : Bool
  files : List Bool
deriving DecidableEq

/-- The list of results on the page: for every repository the `AutoGenerated` marks of its files, and the boxes.
(for ui/assets/js/hound.js:727-926) -/
structure Boxes where
  marks : List (List Bool) := []
  repos : List RepoBox := []
deriving DecidableEq

/-- hound.js:728-730 `getInitialState` of the boxes of files that are new, the others keep their states. -/
def keepFiles : List Bool → List Bool → List Bool
  | _, [] => []
  | [], auto :: autos => (!auto) :: keepFiles [] autos
  | o :: os, _ :: autos => o :: keepFiles os autos

/-- hound.js:844-846 `getInitialState` of the boxes of repositories that are new, the others keep their states. -/
def keepRepos : List RepoBox → List (List Bool) → List RepoBox
  | _, [] => []
  | [], m :: ms => ⟨true, keepFiles [] m⟩ :: keepRepos [] ms
  | b :: bs, m :: ms => ⟨b.isOpen, keepFiles b.files m⟩ :: keepRepos bs ms

/-- hound.js:850-861 `openOrCloseRepo`; `next` is the state the calls so far have asked for. -/
def setRepo (toOpen : Bool) (next : RepoBox) : RepoBox where
  isOpen := toOpen
  files := next.files.map fun _ => toOpen

/-- hound.js:847-849 `toggleRepo`: reads the state `now` and asks for a change of `next`. -/
def toggleRepo (now next : RepoBox) : RepoBox := if now.isOpen then setRepo false next else setRepo true next

/-- hound.js:731-739 `toggleContent`. -/
def toggleFile (o : Bool) : Bool := if o then false else true

/-- What happens on the page. (for ui/assets/js/hound.js:727-926) -/
inductive BoxEvent where
  /-- hound.js:898-906: a search begins, the results are not shown any more -/
  | asked
  /-- hound.js:1017-1028: results are shown, with these marks -/
  | answered (marks : List (List Bool))
  /-- hound.js:1030-1036: files with these marks have been added to a repository -/
  | more (repo : Nat) (marks : List Bool)
  /-- hound.js:783: a click on the title of a file -/
  | clickFile (repo file : Nat)
  /-- hound.js:871: a click on the title of a repository -/
  | clickRepo (repo : Nat)
  /-- hound.js:876-882: a click on the sign in the title, which is a click on the title, too -/
  | clickSign (repo : Nat)
  /-- hound.js:918-920, "Expand all" -/
  | expandAll
  /-- hound.js:921-923, "Collapse all" -/
  | collapseAll

/-- The page after one event. (for ui/assets/js/hound.js:727-926) -/
def Boxes.step (s : Boxes) : BoxEvent → Boxes
  | .asked => {}
  | .answered marks => { marks, repos := keepRepos s.repos marks }
  | .more i extra =>
    let marks := s.marks.modify i (· ++ extra)
    { marks, repos := keepRepos s.repos marks }
  | .clickFile i j => { s with repos := s.repos.modify i fun b => { b with files := b.files.modify j toggleFile } }
  | .clickRepo i => { s with repos := s.repos.modify i fun b => toggleRepo b b }
  | .clickSign i => { s with repos := s.repos.modify i fun b => toggleRepo b (toggleRepo b b) }
  | .expandAll => { s with repos := s.repos.map (setRepo true) }
  | .collapseAll => { s with repos := s.repos.map (setRepo false) }

/-- The page after some events. (for ui/assets/js/hound.js:727-926) -/
def boxesAfter (es : List BoxEvent) : Boxes := es.foldl Boxes.step {}

end Hound.Ui
