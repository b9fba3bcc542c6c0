import Verif.Model.QueryNodes

/-!
# Queries in memory

When is a query tree in memory, and which nodes does it occupy?  The memory is a list of nodes; an address is a place
in it; addresses 0 and 1 are the two nodes that all searches share.
-/

namespace Hound
namespace QN

/-- The two shared nodes are as at the start. -/
def Base (n : Nodes) : Prop := n[0]? = some ⟨.all, [], []⟩ ∧ n[1]? = some ⟨.none, [], []⟩

/-- Two trees, given by the nodes they occupy, have none in common. -/
def Apart (F G : List Nat) : Prop := ∀ x ∈ F, x ∉ G

mutual
/-- What can be read from address `a` is the query `q`: the node at `a` holds the operator and the trigrams, and the
addresses in it lead to the sub-queries. The tree occupies exactly the nodes `F`, each once. The two shared nodes are
leaves and belong to no tree. -/
def Rep (n : Nodes) : Query → Nat → List Nat → Prop
  | .mk op tri qs, a, F => ∃ subs G, n[a]? = some ⟨op, tri, subs⟩ ∧ Reps n qs subs G ∧
      ((a < 2 ∧ qs = [] ∧ G = [] ∧ F = []) ∨ (2 ≤ a ∧ a ∉ G ∧ F = a :: G))
/-- The trees at several addresses and the nodes they occupy. -/
def Reps (n : Nodes) : List Query → List Nat → List Nat → Prop
  | [], subs, G => subs = [] ∧ G = []
  | q :: qs, subs, G => ∃ a as F F', subs = a :: as ∧ G = F ++ F' ∧ Rep n q a F ∧ Reps n qs as F' ∧ Apart F F'
end

/-- The nodes after queries have been made for some patterns, one after the other. -/
def after (grow : Nat → Nat → Nat) (orbit : Rune → List Rune) : List Re → Nodes → Nodes
  | [], n => n
  | re :: res, n => after grow orbit res (regexpQuery grow orbit re n).1

end QN
end Hound
