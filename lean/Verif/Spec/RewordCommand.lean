import Verif.Spec.Execute
import Verif.Spec.Dag

/-! What the command `reword` should do, in terms of the commit graph and of which commits are visible. -/

namespace Verif.Spec

open Verif

/-- The commits which get new versions: the selected ones, and the visible descendants of those. -/
def Affected (graph : CommitGraph Oid) (seen : Oid → Prop) (X : List Oid) (c : Oid) : Prop :=
  c ∈ X ∨ (seen c ∧ ∃ x ∈ X, Anc graph x c)

/-- The commits stay on top of their parents. -/
def InPlace (graph : CommitGraph Oid) (A : Oid → Prop) (p c : Oid) : Prop := A c ∧ IsParent graph p c

/-- The commit graph is that of the repository. -/
def Agrees (graph : CommitGraph Oid) (ee : ExecEnv) : Prop :=
  ∀ c ∈ graph.nodes, ∃ d, ee.commits c = some d ∧ d.parents = graph.parentsOf c

/-- A cherry-pick of a commit onto a commit with the same files as its parent: there is nothing to merge, and
the result has the same files as the original. -/
def CleanPicks (ee : ExecEnv) : Prop :=
  ∀ c d p dp q b, ee.commits c = some d → d.parents = [p] → ee.commits p = some dp →
    (ee.commits q = some b ∨ ee.createCommit b = some q) → b.tree = dp.tree →
    ee.cherryPickFast c q = .ok d.tree

/-- What `reword` does with the commits. A selected commit gets the new message; everything else about it is
as before, but for its parents, which are the new versions of its parents, and the time. A visible commit on
top of those gets a new version with the same files, message and people on top of the new version of its
parent; if it changes no files, there is none. (See `Lands` for what the new version is then.) All other
commits stay as they are, and the new `HEAD` is the new version of the old one. -/
structure Reworded (graph : CommitGraph Oid) (seen : Oid → Prop) (X : List Oid) (message : Oid → Option Text)
    (ee : ExecEnv) (created : List (Oid × CommitData)) (rewritten : AMap Oid MaybeZero)
    (head newHead : Option Oid) : Prop where
  selected : ∀ c ∈ X, ∃ d m ps n, ee.commits c = some d ∧ message c = some m ∧
    List.Forall₂ (Lands (InPlace graph (Affected graph seen X)) rewritten) (graph.parentsOf c) ps ∧
    AMap.get? rewritten c = some (.nonZero n) ∧
    ee.find created n = some ⟨ps, d.tree, some m, d.author, d.committer, ee.newTime d.time⟩
  above : ∀ c, c ∉ X → Affected graph seen X c → ∃ d p dp q, ee.commits c = some d ∧
    graph.parentsOf c = [p] ∧ ee.commits p = some dp ∧
    Lands (InPlace graph (Affected graph seen X)) rewritten p q ∧
    if d.tree = dp.tree then AMap.get? rewritten c = some .zero
    else ∃ n, AMap.get? rewritten c = some (.nonZero n) ∧
      ee.find created n = some ⟨[q], d.tree, d.message, d.author, d.committer, ee.newTime d.time⟩
  others : ∀ c, ¬ Affected graph seen X c → AMap.get? rewritten c = none
  head : ∀ x, head = some x → ∃ q, newHead = some q ∧
    Lands (InPlace graph (Affected graph seen X)) rewritten x q

end Verif.Spec
