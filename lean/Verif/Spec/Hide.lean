import Verif.Spec.Dag
import Verif.Spec.Replay
import Verif.Spec.FinishRebase

/-! What hiding, unhiding and repairing should do, in terms of the events and references. -/

namespace Verif.Spec

open Verif

/-- The status of a commit according to the events: active, hidden, or not mentioned. -/
def statusIn (es : List Event) (o : Oid) : Option Bool := (lastEffect o es).map Prod.snd

/-- A commit is visible: it is an ancestor of `HEAD`, of a branch or of an active commit. -/
def Seen (graph : CommitGraph Oid) (main : Text) (git : GitState) (es : List Event) (o : Oid) : Prop :=
  o ∈ graph.nodes ∧ ∃ h, Anc graph o h ∧
    (git.headInfo.oid = some h ∨ git.refs.get? main = some h ∨
      (∃ b, IsBranch b ∧ git.refs.get? b = some h) ∨ statusIn es h = some true)

/-- The commits which `hide` should hide. -/
def ToHide (graph : CommitGraph Oid) (main : Text) (git : GitState) (es : List Event) (recursive : Bool)
    (sets : List (List Oid)) (o : Oid) : Prop :=
  if recursive then Seen graph main git es o ∧ ∃ s ∈ sets, ∃ x ∈ s, Anc graph x o
  else o ∈ graph.nodes ∧ ∃ s ∈ sets, o ∈ s

/-- The commits which `unhide` should unhide. -/
def ToUnhide (graph : CommitGraph Oid) (es : List Event) (recursive : Bool) (sets : List (List Oid))
    (o : Oid) : Prop :=
  if recursive then o ∈ graph.nodes ∧ statusIn es o = some false ∧ ∃ s ∈ sets, ∃ x ∈ s, Anc graph x o
  else o ∈ graph.nodes ∧ ∃ s ∈ sets, o ∈ s

/-- A list of commits in which none comes after one of its descendants. -/
def ParentsFirst (graph : CommitGraph Oid) (l : List Oid) : Prop :=
  l.Pairwise fun a b => ¬ Anc graph b a

end Verif.Spec
