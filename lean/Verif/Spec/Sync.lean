import Verif.Model.Sync
import Verif.Spec.Move
import Verif.Spec.RewordCommand

/-! What `sync` should do, in terms of the commit graph and of which commits are visible. -/

namespace Verif.Spec

open Verif

/-- A commit which is visible and not on the main branch. -/
def Draft (graph : CommitGraph Oid) (main : Text) (git : GitState) (es : List Event) (c : Oid) : Prop :=
  Seen graph main git es c ∧ ¬ OnMain graph main git c

/-- The first commit of a stack: all its parents are on the main branch. If there are arguments, one of the
commits for which they stand is in the stack. -/
def StackRoot (graph : CommitGraph Oid) (main : Text) (git : GitState) (es : List Event)
    (sets : List (List Oid)) (c : Oid) : Prop :=
  Draft graph main git es c ∧ (∀ p, IsParent graph p c → OnMain graph main git p) ∧
    (sets = [] ∨ ∃ s ∈ sets, ∃ x ∈ s, Anc graph c x)

/-- The commit `root` goes to `dest`; its visible descendants go along. -/
def SubtreeMoves (graph : CommitGraph Oid) (seen : Oid → Prop) (root dest : Oid) : Oid → Oid → Prop :=
  Carried graph seen fun p c => c = root ∧ p = dest

/-- A stack is moved in memory, and the references are updated (C22, C23, C24). -/
def MovedInMemory (env : MoveCmdEnv) (graph : CommitGraph Oid) (seen : Oid → Prop) (root dest : Oid)
    (w w' : RepoWorld) : Prop :=
  let moves := SubtreeMoves graph seen root dest
  ∃ s newHead ok, Relocated env.exec moves (fun c => env.detectDuplicateCommitsViaPatchId = true ∧
      AppliedUpstream graph env.patchId moves c) s w.git.headInfo.oid newHead ∧
    postRebaseInMemory (env.finish s.created) w s.rewritten newHead = (w', .ok ok)

/-- What can happen to a stack. -/
inductive StackStatus where
  | synced
  | declined
  | skipped
deriving DecidableEq

/-- A commit which cannot be moved in memory: a merge commit, or one with conflicts. -/
def Stuck (graph : CommitGraph Oid) (ee : ExecEnv) (c : Oid) : Prop :=
  1 < (graph.parentsOf c).length ∨ ∃ q paths, ee.cherryPickFast c q = .error (.conflict paths)

/-- A commit for which the repository does not work: its message cannot be read, the cherry-pick does not work
for another reason than a conflict, or the new version cannot be written. -/
def Faulty (ee : ExecEnv) (c : Oid) : Prop :=
  (∃ d, ee.commits c = some d ∧ d.message = none) ∨
  ∃ q, ee.cherryPickFast c q = .error .other ∨
    ∃ d tree, ee.commits c = some d ∧ ee.cherryPickFast c q = .ok tree ∧
      ee.createCommit (newVersion ee d q tree) = none

/-- The move of a stack ends with an error, because the repository does not work. If the new commits were
made, it is the update of the references which failed (C22, C23, C54). -/
def MoveBroke (env : MoveCmdEnv) (graph : CommitGraph Oid) (seen : Oid → Prop) (root dest : Oid)
    (w w' : RepoWorld) : Prop :=
  let moves := SubtreeMoves graph seen root dest
  (w' = w ∧ ∃ p c, moves p c ∧ Faulty env.exec c) ∨
  ∃ s newHead e, Relocated env.exec moves (fun c => env.detectDuplicateCommitsViaPatchId = true ∧
      AppliedUpstream graph env.patchId moves c) s w.git.headInfo.oid newHead ∧
    postRebaseInMemory (env.finish s.created) w s.rewritten newHead = (w', .error e)

/-- What `sync` does with one stack. It is left alone if it is on the commit of the main branch already;
otherwise it is moved there, or left alone if one of its commits has conflicts or is a merge commit. -/
def SyncedStack (env : MoveCmdEnv) (graph : CommitGraph Oid) (seen : Oid → Prop) (dest root : Oid)
    (w w' : RepoWorld) : StackStatus → Prop
  | .skipped => graph.parentsOf root = [dest] ∧ w' = w
  | .declined => graph.parentsOf root ≠ [dest] ∧ w' = w ∧
      ∃ p c, SubtreeMoves graph seen root dest p c ∧ Stuck graph env.exec c
  | .synced => graph.parentsOf root ≠ [dest] ∧ (graph.parentsOf root).length ≤ 1 ∧
      MovedInMemory env graph seen root dest w w'

/-- One stack after the other. -/
inductive SyncedStacks (one : Oid → RepoWorld → RepoWorld → StackStatus → Prop) :
    RepoWorld → List (Oid × StackStatus) → RepoWorld → Prop
  | nil (w) : SyncedStacks one w [] w
  | cons {root w w1 w2 status rest} : one root w w1 status → SyncedStacks one w1 rest w2 →
      SyncedStacks one w ((root, status) :: rest) w2

/-- The stacks with a status. -/
def withStatus (l : List (Oid × StackStatus)) (status : StackStatus) : List Oid :=
  (l.filter fun x => x.2 = status).map Prod.fst

/-- The report which fits. -/
def reportOf (l : List (Oid × StackStatus)) : SyncReport :=
  ⟨withStatus l .synced, withStatus l .declined, withStatus l .skipped⟩

end Verif.Spec
