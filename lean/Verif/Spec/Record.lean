import Verif.Model.Record
import Verif.Spec.Amend
import Verif.Spec.Sync

/-! What `record` should do, in terms of the references, the events and the commit graph. -/

namespace Verif.Spec

open Verif

/-- Where `HEAD` should be after a commit, and which branch should have been moved to the new commit.

With `--create`, this is the new branch. Otherwise, it is the branch which is checked out, if there is one. With
`--detach`, no branch is moved, and the new commit is checked out. With `--stash`, no branch is moved, and what
was checked out before is checked out again. -/
def recordedHead (args : RecordArgs) (git : GitState) (new : Oid) : Head × Option Text :=
  match args.create with
  | some name => (.symbolic (t!"refs/heads/" ++ name), some (t!"refs/heads/" ++ name))
  | none =>
    if args.stash then (git.head, none)
    else if args.detach then (.detached new, none)
    else
      match git.head with
      | .symbolic name => (.symbolic name, some name)
      | _ => (.detached new, none)

/-- The references after a commit: the branch, if any, is at the new commit, and there is a reference which
keeps the new commit alive. All other references are as before. -/
structure RecordedRefs (git git' : GitState) (new : Oid) (head : Head) (branch : Option Text) : Prop where
  head : git'.head = head
  moved : ∀ name, branch = some name → git'.refs.get? name = some new
  kept : git'.refs.get? (t!"refs/branchless/" ++ new.toText) = some new
  others : ∀ name, branch ≠ some name → name ≠ t!"refs/branchless/" ++ new.toText →
    git'.refs.get? name = git.refs.get? name

/-- The new commit is visible now, and nothing else is changed. -/
def RecordedEvents (es es' : List Event) (new : Oid) : Prop :=
  ∀ o, statusIn es' o = if o = new then some true else statusIn es o

/-- What has to be true for git to do what it is asked to do. `merged` are the commits whose merge is in progress, if any. -/
structure RecordWorks (env : RecordEnv) (main : Text) (git : GitState) (new : Oid) (merged : List Oid) : Prop where
  /-- There is a main branch, at least after the commit. -/
  main_exists : (git.refs.get? main).isSome ∨ git.head = .symbolic main
  mains : ∀ w, ((env.repo w).finish []).move.mainBranch = main ∧
    ((env.repo w).finish []).checkout.mainBranch = main
  /-- Branches can be written, and changes in the working copy are not in the way. -/
  accepts : ∀ w name, IsBranch name → ((env.repo w).finish []).move.refuses name = false
  works : ∀ w, ((env.repo w).finish []).checkout.works = true
  /-- The references are valid, also with that which keeps the new commit alive. -/
  refs : ValidRefs git.refs
  keep : ∀ name, (git.refs.get? name).isSome →
    pathConflict (t!"refs/branchless/" ++ new.toText) name = false
  /-- `HEAD` is detached, or on a branch. -/
  head : (∃ o, git.head = .detached o) ∨ ∃ name, IsBranch name ∧ git.head = .symbolic name ∧
    ∀ b, (git.refs.get? b).isSome → pathConflict name b = false
  /-- The new commit is in the repository, on top of that which was checked out before, and of those which are merged. -/
  commit : ∀ w, w.git.headInfo.oid = some new →
    ∃ d, (env.repo w).exec.commits new = some d ∧ d.parents = git.headInfo.oid.toList ++ merged

/-- A branch of this name can be created. -/
structure CanCreateBranch (env : RecordEnv) (git : GitState) (name : Text) : Prop where
  valid : env.validName name = true
  free : ∀ b, (git.refs.get? b).isSome → b ≠ t!"refs/heads/" ++ name ∧
    pathConflict (t!"refs/heads/" ++ name) b = false

/-! ### `--insert` -/

/-- The visible commits which have a parent in common with a commit. -/
def Sibling (graph : CommitGraph Oid) (seen : Oid → Prop) (head c : Oid) : Prop :=
  seen c ∧ c ≠ head ∧ ∃ p, IsParent graph p head ∧ IsParent graph p c

/-- The siblings of a commit, and the visible commits on top of them, are to be put on their parents, but on the
commit itself instead of its own parents. -/
def OnSibling (graph : CommitGraph Oid) (seen : Oid → Prop) (head p c : Oid) : Prop :=
  (seen c ∧ ∃ s, Sibling graph seen head s ∧ Anc graph s c) ∧
    ∃ x, IsParent graph x c ∧ ((IsParent graph x head ∧ p = head) ∨ (¬ IsParent graph x head ∧ p = x))

/-- Commits are moved in memory, and the references are updated (C22, C23, C24). -/
def RelocatedInMemory (env : MoveCmdEnv) (graph : CommitGraph Oid) (moves : Oid → Oid → Prop)
    (w w' : RepoWorld) : Prop :=
  ∃ s newHead ok, Relocated env.exec moves (AppliedUpstream graph env.patchId moves) s
      w.git.headInfo.oid newHead ∧
    postRebaseInMemory (env.finish s.created) w s.rewritten newHead = (w', .ok ok)

/-- Moving commits ends with an error, because the repository does not work. If the new commits were made, it
is the update of the references which failed (C22, C23, C54). -/
def RelocationBroke (env : MoveCmdEnv) (graph : CommitGraph Oid) (moves : Oid → Oid → Prop)
    (w w' : RepoWorld) : Prop :=
  (w' = w ∧ ∃ p c, moves p c ∧ Faulty env.exec c) ∨
  ∃ s newHead e, Relocated env.exec moves (AppliedUpstream graph env.patchId moves) s
      w.git.headInfo.oid newHead ∧
    postRebaseInMemory (env.finish s.created) w s.rewritten newHead = (w', .error e)

end Verif.Spec
