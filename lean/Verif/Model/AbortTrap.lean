import Verif.Model.FinishRebase
import Verif.Model.TestDir

/-!
# The rebase which is in progress while tests are run in the working copy (git-branchless-test/src/lib.rs)

So that the user can get back to where they were when `git test` is interrupted, an on-disk rebase with only a `break`
in its todo list is started before the tests, and aborted after them.

What `git` does in `git rebase --continue` and `git rebase --abort` is from its sources (builtin/rebase.c, sequencer.c,
reset.c), and trusted. Events are not recorded meanwhile (`EventTransactionId::Suppressed`, lib.rs:1211), so the event log
does not change. Simplified: no I/O errors.
-/

namespace Verif.TestRun

open Verif.TestDir

/-- The repository with its working copy, and two of the files in git's state directory of a rebase. -/
structure TrapWorld where
  repo : RepoWorld
  /-- `orig-head` -/
  origHead : Option Oid
  /-- `head-name` -/
  headName : Option Text
  /-- The working copy. -/
  dir : Dir

/-- What else `git` finds. -/
structure TrapEnv where
  /-- Another operation than a rebase is in progress. -/
  otherOperation : Option Text
  /-- Tracked files differ from the index. -/
  unstagedChanges : Bool
  /-- The index differs from `HEAD`. -/
  stagedChanges : Bool
  tree : Oid → Text → Option Text

/-- `git rebase --continue` when the todo list has only a `break`: it is taken from the list, and git stops; with staged
changes it refuses (sequencer.c `commit_staged_changes`: there is no message to commit them with). -/
def gitContinueBreak (staged : Bool) (w : RepoWorld) : RepoWorld × Nat :=
  if staged then (w, 1)
  else if w.rebaseDir = some (some t!"break\n") then ({ w with rebaseDir := some (some []) }, 0)
  else (w, 1)

/-- What an on-disk rebase finds. -/
def TrapEnv.disk (env : TrapEnv) : OnDiskEnv :=
  ⟨env.otherOperation, env.unstagedChanges, env.stagedChanges, gitContinueBreak env.stagedChanges⟩

/-- execute.rs:1036-1061: the files `orig-head` and `head-name`, which are written with the others in git's state directory
when there is a commit. -/
def TrapWorld.started (w : TrapWorld) (repo : RepoWorld) : TrapWorld :=
  if w.repo.rebaseDir.isNone && repo.rebaseDir.isSome then
    let head := w.repo.git.headInfo
    { w with
      repo
      origHead := head.oid
      headName := head.oid.map fun _ => head.referenceName.getD t!"detached HEAD" }
  else { w with repo }

/-- lib.rs:670-751 `set_abort_trap`; an inner error is an exit code, otherwise it says whether the trap is active. -/
def setAbortTrap (ee : ExecEnv) (finish : List (Oid × CommitData) → FinishEnv) (env : TrapEnv)
    (strategy : ExecutionStrategy) (w : TrapWorld) : TrapWorld × Except Failure (Except Nat Bool) :=
  match strategy with
  | .worktree => (w, .ok (.ok false))
  | .workingCopy =>
    match env.disk.currentOperationType w.repo with
    | some _ => (w, .ok (.error 1))
    | none =>
      match w.repo.git.headInfo.oid with
      | none => (w, .ok (.error 1))
      | some head =>
        match executeRebasePlan ee finish env.disk ⟨false, true, false⟩ ⟨head, [.break]⟩ w.repo with
        | (repo, .error e) => (w.started repo, .error e)
        | (repo, .ok (.succeeded _)) => (w.started repo, .ok (.ok true))
        | (repo, .ok (.declinedToMerge _)) => (w.started repo, .ok (.error 1))
        | (repo, .ok (.failed code)) => (w.started repo, .ok (.error code))

/-- `git rebase --abort`: the branch is set to the commit at which the rebase was started, `HEAD` is attached to it again,
and the commit is checked out as with `git reset --hard`. -/
def gitRebaseAbort (tree : Oid → Text → Option Text) (w : TrapWorld) : TrapWorld × Nat :=
  match w.repo.rebaseDir, w.origHead with
  | some _, some o =>
    let git : GitState :=
      match w.headName with
      | some n =>
        if (stripPrefix? t!"refs/" n).isSome then ⟨w.repo.git.refs.insert n o, .symbolic n⟩
        else { w.repo.git with head := .detached o }
      | none => { w.repo.git with head := .detached o }
    (⟨{ w.repo with git, rebaseDir := none }, none, none, w.dir.reset (tree o)⟩, 0)
  | _, _ => (w, 128)

/-- lib.rs:753-765 `clear_abort_trap`; the result is the exit code of an error. -/
def clearAbortTrap (env : TrapEnv) (active : Bool) (w : TrapWorld) : TrapWorld × Option Nat :=
  if active then
    match gitRebaseAbort env.tree w with
    | (w, 0) => (w, none)
    | (w, code) => (w, some code)
  else (w, none)

/-- lib.rs:1199-1254 `run_tests`, where `inner` is `run_tests_inner` (lib.rs:1256-1560), whatever it does. -/
def runTests (ee : ExecEnv) (finish : List (Oid × CommitData) → FinishEnv) (env : TrapEnv)
    (strategy : ExecutionStrategy) (inner : TrapWorld → TrapWorld × Except Failure (Except Nat α)) (w : TrapWorld) :
    TrapWorld × Except Failure (Except Nat α) :=
  match setAbortTrap ee finish env strategy w with
  | (w, .error e) => (w, .error e)
  | (w, .ok (.error code)) => (w, .ok (.error code))
  | (w, .ok (.ok active)) =>
    match inner w with
    | (w, result) =>
      match clearAbortTrap env active w with
      | (w, some code) => (w, .ok (.error code))
      | (w, none) => (w, result)

end Verif.TestRun
