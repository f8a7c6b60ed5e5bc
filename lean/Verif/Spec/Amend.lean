import Verif.Spec.RewordCommand
import Verif.Spec.Move
import Verif.Spec.Hide

/-! What the command `amend` should do, in terms of the commit graph and of which commits are visible. -/

namespace Verif.Spec

open Verif

/-- The visible commits on top of the one which is amended. -/
def Above (graph : CommitGraph Oid) (seen : Oid → Prop) (head c : Oid) : Prop :=
  seen c ∧ c ≠ head ∧ Anc graph head c

/-- The commits on top are to be put on their parents, but on the amended commit instead of the original. -/
def OnAmended (graph : CommitGraph Oid) (seen : Oid → Prop) (head new p c : Oid) : Prop :=
  Above graph seen head c ∧ ∃ x, IsParent graph x c ∧ p = if x = head then new else x

/-- The graph with one more commit. -/
def grown (graph : CommitGraph Oid) (new : Oid) (parents : List Oid) : CommitGraph Oid :=
  if new ∈ graph.nodes then graph else ⟨(new, parents) :: graph.entries⟩

/-- What `amend --reparent` should do with the commits on top: the new version has the same files, message and
people, and its parents are the new versions of the parents, and the amended commit in the place of the
original. A commit which is to be skipped is dropped. All other commits stay as they are, and so does the new
`HEAD`. -/
structure Reparented (graph : CommitGraph Oid) (seen : Oid → Prop) (head new : Oid) (skip : Oid → Prop)
    (ee : ExecEnv) (created : List (Oid × CommitData)) (rewritten : AMap Oid MaybeZero) : Prop where
  moved : ∀ c, Above graph seen head c → (skip c ∧ AMap.get? rewritten c = some .zero) ∨
    ∃ d ps n, ee.commits c = some d ∧
      List.Forall₂ (fun p q => Lands (OnAmended graph seen head new) rewritten (if p = head then new else p) q)
        (graph.parentsOf c) ps ∧
      AMap.get? rewritten c = some (.nonZero n) ∧
      ee.find created n = some ⟨ps, d.tree, d.message, d.author, d.committer, ee.newTime d.time⟩
  others : ∀ c, ¬ Above graph seen head c → AMap.get? rewritten c = none

/-- A name for which git finds the branch of this name, and nothing else. -/
structure OwnName (refs : Refs) (x : Text) : Prop where
  not_head : x ≠ t!"HEAD"
  not_oid : x.length = 40 → Oid.parse x = none
  not_full : ¬ t!"refs/" <+: x ∧ ¬ t!"branchless/" <+: x
  free : ∀ pre ∈ [[], t!"refs/", t!"refs/tags/"], refs.get? (pre ++ x) = none

/-- What `amend` does with the references when the commit `head` is amended to `new`: the branches which were
at `head` are at `new`, and `HEAD` is on the same branch as before, or detached at `new`. There is a reference
which keeps the new commit alive. All other references are as before. -/
structure AmendedHead (git git' : GitState) (head new : Oid) : Prop where
  branches : ∀ name, IsBranch name → git'.refs.get? name =
    if git.refs.get? name = some head then some new else git.refs.get? name
  kept : git'.refs.get? (t!"refs/branchless/" ++ new.toText) = some new
  others : ∀ name, ¬ IsBranch name → name ≠ t!"refs/branchless/" ++ new.toText →
    git'.refs.get? name = git.refs.get? name
  detached : ∀ o, git.head = .detached o → git'.head = .detached new
  attached : ∀ name, git.head = .symbolic name → git'.head = .symbolic name
  head : git'.headInfo.oid = some new

end Verif.Spec
