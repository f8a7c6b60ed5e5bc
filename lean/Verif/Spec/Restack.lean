import Verif.Spec.Hide
import Verif.Spec.Evolve
import Verif.Spec.Plan
import Verif.Spec.Execute

/-! What restacking should do, in terms of the events, the references and the commit graph. -/

namespace Verif.Spec

open Verif

/-- `child` is an abandoned child of `o`: it is visible and was not hidden or rewritten, but its parent
`o` was rewritten (or dropped). -/
structure Abandoned (graph : CommitGraph Oid) (main : Text) (git : GitState) (es : List Event)
    (o child : Oid) : Prop where
  parent : IsParent graph o child
  seen : Seen graph main git es child
  current : statusIn es child ≠ some false
  rewritten : ∃ m, RewrittenTo es o m

/-- Without arguments, all commits are looked at. -/
def Chosen (commits : Option (List Oid)) (o : Oid) : Prop := ∀ l, commits = some l → o ∈ l

/-- `child` is to be moved onto `dest`: onto the newest version of its parent; the children of a dropped
commit stay on it. -/
def Restacked (graph : CommitGraph Oid) (main : Text) (git : GitState) (es : List Event)
    (commits : Option (List Oid)) (child dest : Oid) : Prop :=
  ∃ o, Chosen commits o ∧ Abandoned graph main git es o child ∧
    (Newest es o (.nonZero dest) ∨ (Newest es o .zero ∧ dest = o))

/-- What is put on top of what: the abandoned commits on their destinations, and with them their visible
descendants, each on its own parents. -/
def RestackMoves (graph : CommitGraph Oid) (main : Text) (git : GitState) (es : List Event)
    (commits : Option (List Oid)) (p c : Oid) : Prop :=
  Restacked graph main git es commits c p ∨
  ((¬ ∃ dest, Restacked graph main git es commits c dest) ∧
    (∃ s dest, Restacked graph main git es commits s dest ∧ Anc graph s c) ∧
    Seen graph main git es c ∧ IsParent graph p c)

/-- `graph'` is the graph with the new commits added: those to which others were rewritten, with their
parents. -/
structure WithNewCommits (graph graph' : CommitGraph Oid) (rewritten : AMap Oid MaybeZero)
    (find : Oid → Option CommitData) : Prop where
  nodes : ∀ x, x ∈ graph'.nodes ↔ x ∈ graph.nodes ∨ ∃ c, AMap.get? rewritten c = some (.nonZero x)
  old : ∀ x ∈ graph.nodes, ∀ p, IsParent graph' p x ↔ IsParent graph p x
  new : ∀ c x d, AMap.get? rewritten c = some (.nonZero x) → find x = some d →
    ∀ p, IsParent graph' p x ↔ p ∈ d.parents
  fresh : ∀ c x, AMap.get? rewritten c = some (.nonZero x) → x ∉ graph.nodes

end Verif.Spec
