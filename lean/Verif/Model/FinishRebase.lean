import Verif.Model.Execute
import Verif.Model.Reference
import Verif.Model.RefTransaction
import Verif.Model.RewriteHooks
import Verif.Model.Gc
import Mathlib.Data.List.Dedup
import Mathlib.Data.List.Sort

/-!
The end of a rebase: moving branches, checking out the new `HEAD`, and the choice between a rebase in
memory and one on disk. Model of git-branchless-lib/src/core/rewrite/execute.rs:27-316 and 897-1366,
core/check_out.rs:65-200, core/repo_ext.rs:50-114.

References are direct, and point to commits; `HEAD` is the only symbolic reference.
-/

namespace Verif

/-- git/repo.rs:327-336 `ResolvedReferenceInfo`. -/
structure HeadInfo where
  oid : Option Oid
  referenceName : Option Text
deriving DecidableEq

/-- The contents of `HEAD`. -/
inductive Head where
  | missing
  | detached (oid : Oid)
  | symbolic (name : Text)
deriving DecidableEq

/-- The references of a repository. -/
structure GitState where
  refs : Refs
  head : Head
deriving DecidableEq

/-- git/repo.rs:691-699 `get_head_info` (with `resolve_reference`, 671-687). -/
def GitState.headInfo (g : GitState) : HeadInfo :=
  match g.head with
  | .missing => ⟨none, none⟩
  | .detached o => ⟨some o, none⟩
  | .symbolic n => ⟨g.refs.get? n, some n⟩

/-- git/repo.rs:726-737 `detach_head`. -/
def GitState.detachHead (g : GitState) (info : HeadInfo) : GitState :=
  match info.oid with
  | some o => { g with head := .detached o }
  | none => g

/-! ### moving branches -/

/-- What `move_branches` finds. -/
structure MoveEnv where
  /-- The full name of the main branch, from the configuration. -/
  mainBranch : Text
  /-- reference.rs:301-308 `get_upstream_branch_target` of the main branch. -/
  upstreamTarget : Except Unit (Option Oid)
  /-- `find_commit` finds a commit. -/
  isCommit : Oid → Bool
  /-- Creating or deleting the reference fails. (For example, libgit2 does not delete a branch which
  is checked out in another work tree; a lock file may exist.) -/
  refuses : Text → Bool
  /-- The order in which a `HashMap` with these keys is iterated. -/
  shuffle : List Oid → List Oid

/-- repo.rs `get_all_local_branches`. -/
def localBranches (refs : Refs) : Refs := refs.filter fun e => (categorize e.1).isLocalBranch

/-- repo_ext.rs:99-114 `get_branch_oid_to_names`: the keys. -/
def branchOids (refs : Refs) : List Oid := ((localBranches refs).map Prod.snd).dedup

/-- repo_ext.rs:99-114 `get_branch_oid_to_names`: the names for a key, sorted as in execute.rs:51-53. -/
def namesAt (refs : Refs) (o : Oid) : List Text :=
  (((localBranches refs).filter fun e => e.2 = o).map Prod.fst).insertionSort (· ≤ ·)

/-- execute.rs:42-43: the references, and `branch_moves`. -/
structure MoveState where
  refs : Refs
  moves : List (Oid × MaybeZero × Text)

/-- How the loop ends early: `break 'outer` with an error (the hook is run), or `?` (it is not). -/
inductive MoveStop where
  | stopped (s : MoveState)
  | aborted (s : MoveState)

/-- execute.rs:70-79 and 93-103: move a branch to a commit. -/
def moveReference (env : MoveEnv) (old : Oid) (s : MoveState) (name : Text) (new : Oid) :
    Except MoveStop MoveState :=
  if env.refuses name then .error (.stopped s)
  else
    match createReference s.refs name new with
    | .error _ => .error (.stopped s)
    | .ok refs => .ok ⟨refs, s.moves ++ [(old, .nonZero new, name)]⟩

/-- execute.rs:105-113 and 126-131: delete a branch. -/
def deleteBranch (env : MoveEnv) (old : Oid) (s : MoveState) (name : Text) :
    Except MoveStop MoveState :=
  if env.refuses name then .error (.stopped s)
  else .ok ⟨deleteReference s.refs name, s.moves ++ [(old, .zero, name)]⟩

/-- execute.rs:69-79 and 83-143: one round of the loops over the names of a commit. -/
def moveOne (env : MoveEnv) (old : Oid) (new : MaybeZero) (s : MoveState) (name : Text) :
    Except MoveStop MoveState :=
  match new with
  | .nonZero n => moveReference env old s name n
  | .zero =>
    if name = env.mainBranch then
      match env.upstreamTarget with
      | .error _ => .error (.aborted s)
      | .ok (some target) => moveReference env old s name target
      | .ok none =>
        match s.refs.get? env.mainBranch with
        | none => .error (.aborted s)
        | some _ => deleteBranch env old s name
    else
      match categorize name with
      | .remoteBranch _ => .ok s
      | .otherRef _ => .ok s
      | .localBranch _ =>
        match s.refs.get? (t!"refs/heads/" ++ (categorize name).renderSuffix) with
        | some _ => deleteBranch env old s name
        | none => .ok { s with moves := s.moves ++ [(old, .zero, name)] }

/-- execute.rs:44-145: one round of the outer loop. `refs` are the references at the beginning. -/
def moveGroup (env : MoveEnv) (refs : Refs) (rewritten : AMap Oid MaybeZero) (s : MoveState)
    (old : Oid) : Except MoveStop MoveState :=
  match rewritten.get? old with
  | none => .ok s
  | some (.nonZero n) =>
    if env.isCommit n then (namesAt refs old).foldlM (moveOne env old (.nonZero n)) s
    else .error (.stopped s)
  | some .zero => (namesAt refs old).foldlM (moveOne env old .zero) s

/-- The result of `move_branches`: the references, what was given to the reference-transaction hook
(`none`: it was not run), and whether there was no error. -/
structure MoveResult where
  refs : Refs
  report : Option (List (Oid × MaybeZero × Text))
  ok : Bool

/-- execute.rs:27-166 `move_branches`. The hook itself is `runReferenceTransactionHook`. -/
def moveBranches (env : MoveEnv) (refs : Refs) (rewritten : AMap Oid MaybeZero) : MoveResult :=
  match refs.get? env.mainBranch with
  | none => ⟨refs, none, false⟩
  | some _ =>
    match (env.shuffle (branchOids refs)).foldlM (moveGroup env refs rewritten) ⟨refs, []⟩ with
    | .ok s => ⟨s.refs, some s.moves, true⟩
    | .error (.stopped s) => ⟨s.refs, some s.moves, false⟩
    | .error (.aborted s) => ⟨s.refs, none, false⟩

/-- execute.rs:147-153: what the hook reads. -/
def movesStdin (moves : List (Oid × MaybeZero × Text)) : Text :=
  moves.flatMap fun m => (m.1.toText ++ ' ' :: (m.2.1.toText ++ ' ' :: m.2.2)) ++ ['\n']

/-! ### checking out the new `HEAD` -/

/-- execute.rs:187-279: what should be checked out. -/
def updatedHeadTarget (refs : Refs) (rewritten : AMap Oid MaybeZero) (previous : HeadInfo)
    (skipped : Option Oid) : HeadInfo :=
  match previous with
  | ⟨none, none⟩ => ⟨skipped, none⟩
  | ⟨none, some name⟩ => ⟨none, some name⟩
  | ⟨some oid, none⟩ =>
    match rewritten.get? oid with
    | some (.nonZero new) => ⟨some new, none⟩
    | some .zero => ⟨skipped, none⟩
    | none => ⟨some oid, none⟩
  | ⟨some _, some name⟩ =>
    match refs.get? name with
    | some oid => ⟨some oid, some name⟩
    | none => ⟨skipped, none⟩

/-- check_out.rs:29-40 `CheckoutTarget`, without `Unknown`. -/
inductive CheckoutTarget where
  | oid (oid : Oid)
  | reference (name : Text)
deriving DecidableEq

/-- repo.rs:342-352 `get_branch_name`, for a given name. -/
def headBranchName (name : Text) : Text := (stripPrefix? t!"refs/heads/" name).getD name

/-- execute.rs:281-306: nothing to do if `HEAD` is there already; else the argument of
`check_out_commit`. -/
def updatedHeadCheckout (g : GitState) (target : HeadInfo) : Option CheckoutTarget :=
  if g.headInfo = target then none
  else
    match target with
    | ⟨none, none⟩ => none
    | ⟨some oid, none⟩ => some (.oid oid)
    | ⟨_, some name⟩ => some (.reference (headBranchName name))

/-- What `check_out_commit` depends on. -/
structure CheckoutEnv where
  mainBranch : Text
  /-- `branchless.navigation.autoSwitchBranches` -/
  autoSwitch : Bool
  /-- The object is a commit. -/
  isCommit : Oid → Bool
  /-- The changes in the working copy do not prevent `git checkout`. -/
  works : Bool

/-- check_out.rs:65-102 `maybe_get_branch_name`, for a given target; an error if there is no main
branch. -/
def maybeGetBranchName (env : CheckoutEnv) (g : GitState) (target : Text) (oid : Option Oid) :
    Except Unit Text :=
  match g.refs.get? env.mainBranch with
  | none => .error ()
  | some _ =>
    let headOid := g.headInfo.oid
    if (headOid.isSome ∧ headOid = oid) ∨ some target = headOid.map Oid.toText then .ok target
    else
      match oid with
      | none => .ok target
      | some o =>
        match namesAt g.refs o with
        | [name] => .ok (categorize name).renderSuffix
        | _ => .ok target

/-- `git checkout <target>` (an external program): a branch of this name is checked out; else, if the
target is a full object id of a commit, it is checked out detached. Otherwise, and if the working copy
has changes in the way, nothing happens. (Other kinds of targets are not modelled, and fail here.) -/
def gitCheckout (env : CheckoutEnv) (g : GitState) (target : Text) : Option GitState :=
  if !env.works then none
  else
    match g.refs.get? (t!"refs/heads/" ++ target) with
    | some _ => some { g with head := .symbolic (t!"refs/heads/" ++ target) }
    | none =>
      if target.length = 40 then
        match Oid.parse target with
        | some o => if env.isCommit o then some { g with head := .detached o } else none
        | none => none
      else none

/-- check_out.rs:107-200 `check_out_commit`, without `reset` and additional arguments: the references,
and whether it succeeded. Creating a snapshot before (132-134) and restoring one afterwards (168-186) are
not modelled, nor is the smartlog. -/
def checkOutCommit (env : CheckoutEnv) (g : GitState) (target : CheckoutTarget) :
    Except Unit (GitState × Bool) :=
  let (text, oid) := match target with
    | .reference name => ((categorize name).renderSuffix, none)
    | .oid o => (o.toText, some o)
  let text := if env.autoSwitch then maybeGetBranchName env g text oid else .ok text
  match text with
  | .error e => .error e
  | .ok text =>
    match gitCheckout env g text with
    | some g => .ok (g, true)
    | none => .ok (g, false)

/-- execute.rs:176-316 `check_out_updated_head`. -/
def checkOutUpdatedHead (env : CheckoutEnv) (g : GitState) (rewritten : AMap Oid MaybeZero)
    (previous : HeadInfo) (skipped : Option Oid) : Except Unit (GitState × Bool) :=
  match updatedHeadCheckout g (updatedHeadTarget g.refs rewritten previous skipped) with
  | none => .ok (g, true)
  | some target => checkOutCommit env g target

/-! ### after a rebase in memory -/

/-- The repository and the event log. -/
structure RepoWorld where
  git : GitState
  db : Db
  /-- The file with the deferred commits (see `HookWorld`). -/
  deferred : Option Text
  /-- git's state directory of a rebase: its `git-rebase-todo`, if it was written. -/
  rebaseDir : Option (Option Text)

/-- Everything on which the end of a rebase depends. -/
structure FinishEnv where
  move : MoveEnv
  checkout : CheckoutEnv
  /-- The transaction id as text, given to hooks in the environment (run.rs:437). -/
  tx : Text
  /-- The time. -/
  now : Timestamp
  /-- The file `packed-refs` when the hook runs, see `hookReferenceTransaction`. -/
  packedFile : Option (Option Text)
  /-- `Repo::reference_name_to_oid` -/
  resolve : Text → Option MaybeZero
  /-- The order in which a `HashMap` is iterated. -/
  shuffle : List (Oid × MaybeZero) → List (Oid × MaybeZero)

/-- execute.rs:154-161: running the `reference-transaction` hook (run.rs:387-488: the exit status of a
hook is ignored). That the hooks are installed is assumed. -/
def runReferenceTransactionHook (env : FinishEnv) (db : Db) (moves : List (Oid × MaybeZero × Text)) :
    Db :=
  (hookReferenceTransaction db (some env.tx) t!"committed" env.now env.packedFile env.resolve
    ((textLines (movesStdin moves)).map some)).2

/-- execute.rs:933-946: running the `post-rewrite` hook. -/
def runPostRewriteHook (env : FinishEnv) (w : RepoWorld) (rewritten : AMap Oid MaybeZero) : Db :=
  (hookPostRewrite ⟨w.rebaseDir.isSome, w.deferred, w.db, []⟩ (some env.tx) t!"rebase" env.now
    (writeRewrittenList (env.shuffle rewritten))).2.db

/-- execute.rs:917-921: keep the new commits alive; the flag is whether there was no error. -/
def markAllReachable (isCommit : Oid → Bool) : Refs → List (Oid × MaybeZero) → Refs × Bool
  | refs, [] => (refs, true)
  | refs, (_, .zero) :: l => markAllReachable isCommit refs l
  | refs, (_, .nonZero n) :: l =>
    match markCommitReachable isCommit refs n with
    | .error _ => (refs, false)
    | .ok refs => markAllReachable isCommit refs l

/-- execute.rs:897-960 `post_rebase_in_memory`; the result is whether the checkout succeeded, or an
error. -/
def postRebaseInMemory (env : FinishEnv) (w : RepoWorld) (rewritten : AMap Oid MaybeZero)
    (skipped : Option Oid) : RepoWorld × Except Unit Bool :=
  let marked := markAllReachable env.move.isCommit w.git.refs rewritten
  let w := { w with git := { w.git with refs := marked.1 } }
  if !marked.2 then (w, .error ())
  else
    let head := w.git.headInfo
    let w := { w with git := w.git.detachHead head }
    let moved := moveBranches env.move w.git.refs rewritten
    let w := { w with
      git := { w.git with refs := moved.refs }
      db := match moved.report with
        | some moves => runReferenceTransactionHook env w.db moves
        | none => w.db }
    if !moved.ok then (w, .error ())
    else
      let w := { w with db := runPostRewriteHook env w rewritten }
      match checkOutUpdatedHead env.checkout w.git rewritten head skipped with
      | .error e => (w, .error e)
      | .ok (git, ok) => ({ w with git }, .ok ok)

/-! ### on disk -/

/-- plan.rs:30-37 `Display for OidOrLabel`. -/
def OidOrLabel.toText : OidOrLabel → Text
  | .oid o => o.toText
  | .label l => l

/-- plan.rs:131-185 `to_rebase_command`. -/
def RebaseCommand.toRebaseCommand : RebaseCommand → Except Panic Text
  | .createLabel l => .ok (t!"label " ++ l)
  | .reset t => .ok (t!"reset " ++ t.toText)
  | .pick _ [] => .ok []
  | .pick _ [c] => .ok (t!"pick " ++ c.toText)
  | .pick _ (_ :: _ :: _) => .error .panic
  | .merge c ps => .ok (t!"merge -C " ++ c.toText ++ t!" " ++ t!" ".intercalate (ps.map OidOrLabel.toText))
  | .replace _ r ps => .ok (t!"exec git show -s --format=%B " ++ r.toText ++ t!" | git commit-tree " ++
      t!" ".intercalate (ps.map fun
        | .oid p => t!"-p " ++ p.toText
        | .label l => t!"-p refs/rewritten/" ++ l) ++ t!" " ++ r.toText ++ t!"^{tree}")
  | .break => .ok t!"break"
  | .registerExtraPostRewriteHook => .ok t!"exec git branchless hook-register-extra-post-rewrite-hook"
  | .detectEmptyCommit c => .ok (t!"exec git branchless hook-detect-empty-commit " ++ c.toText)
  | .skipUpstreamAppliedCommit c =>
    .ok (t!"exec git branchless hook-skip-upstream-applied-commit " ++ c.toText)

/-- execute.rs:979-982 `on_disk::Error`. -/
inductive OnDiskError where
  | changedFilesInRepository
  | operationAlreadyInProgress (operationType : Text)
deriving DecidableEq

/-- What an on-disk rebase depends on. -/
structure OnDiskEnv where
  /-- repo.rs:774-784 `get_current_operation_type`, apart from a rebase. -/
  otherOperation : Option Text
  /-- Tracked files differ from the index. -/
  unstagedChanges : Bool
  /-- The index differs from `HEAD`. -/
  stagedChanges : Bool
  /-- `git rebase --continue` (an external program): the repository afterwards, and the exit code. -/
  rebaseContinue : RepoWorld → RepoWorld × Nat

/-- repo.rs:774-784 `get_current_operation_type`. -/
def OnDiskEnv.currentOperationType (env : OnDiskEnv) (w : RepoWorld) : Option Text :=
  if w.rebaseDir.isSome then some t!"rebase" else env.otherOperation

/-- repo.rs:968-981 `has_changed_files`: the exit code of `git diff --quiet`, which compares the
working copy with the index. -/
def OnDiskEnv.hasChangedFiles (env : OnDiskEnv) : Bool := env.unstagedChanges

/-- How a function ends which can return an `eyre` error or panic. -/
inductive Failure where
  | error
  | panic
deriving DecidableEq

/-- execute.rs:984-1151 `write_rebase_state_to_disk`. Of the files, only the todo list is modelled.
I/O errors are not. -/
def writeRebaseStateToDisk (env : OnDiskEnv) (plan : RebasePlan) (w : RepoWorld) :
    RepoWorld × Except Failure (Except OnDiskError Unit) :=
  match env.currentOperationType w with
  | some op => (w, .ok (.error (.operationAlreadyInProgress op)))
  | none =>
    if env.hasChangedFiles then (w, .ok (.error .changedFilesInRepository))
    else
      let head := w.git.headInfo
      let w := { w with rebaseDir := some none }
      if plan.commands.any (fun
          | .pick c l => !l.contains c
          | _ => false) then (w, .error .error)
      else
        match plan.commands.mapM RebaseCommand.toRebaseCommand with
        | .error _ => (w, .error .panic)
        | .ok lines =>
          ({ w with rebaseDir := some (some (lines.flatMap fun l => l ++ ['\n']))
                    git := w.git.detachHead head }, .ok (.ok ()))

/-- execute.rs:1159-1190 `rebase_on_disk`. -/
def rebaseOnDisk (env : OnDiskEnv) (plan : RebasePlan) (w : RepoWorld) :
    RepoWorld × Except Failure (Except OnDiskError Nat) :=
  match writeRebaseStateToDisk env plan w with
  | (w, .error e) => (w, .error e)
  | (w, .ok (.error e)) => (w, .ok (.error e))
  | (w, .ok (.ok ())) =>
    let (w, code) := env.rebaseContinue w
    (w, .ok (.ok code))

/-! ### the choice -/

/-- execute.rs:1193-1219 `ExecuteRebasePlanOptions` (the time stamps are in `ExecEnv`). -/
structure ExecOptions where
  forceInMemory : Bool
  forceOnDisk : Bool
  resolveMergeConflicts : Bool

/-- execute.rs:1220-1244 `ExecuteRebasePlanResult`. -/
inductive ExecResult where
  | succeeded (rewritten : Option (AMap Oid MaybeZero))
  | declinedToMerge (info : FailedMergeInfo)
  | failed (exitCode : Nat)
deriving DecidableEq

/-- execute.rs:1248-1366 `execute_rebase_plan`. `finish` gives what the end of the rebase depends on,
for the objects which were created. -/
def executeRebasePlan (ee : ExecEnv) (finish : List (Oid × CommitData) → FinishEnv) (disk : OnDiskEnv)
    (opts : ExecOptions) (plan : RebasePlan) (w : RepoWorld) :
    RepoWorld × Except Failure ExecResult :=
  let onDisk : RepoWorld × Except Failure ExecResult :=
    if opts.forceInMemory then (w, .error .error)
    else
      match rebaseOnDisk disk plan w with
      | (w, .error e) => (w, .error e)
      | (w, .ok (.ok 0)) => (w, .ok (.succeeded none))
      | (w, .ok (.ok code)) => (w, .ok (.failed code))
      | (w, .ok (.error .changedFilesInRepository)) => (w, .ok (.failed 1))
      | (w, .ok (.error (.operationAlreadyInProgress _))) => (w, .ok (.failed 1))
  if opts.forceOnDisk then onDisk
  else
    match ee.rebaseInMemory w.git.headInfo.oid plan with
    | .error .panic => (w, .error .panic)
    | .error .error => (w, .error .error)
    | .ok (s, newHead) =>
      match postRebaseInMemory (finish s.created) w s.rewritten newHead with
      | (w, .error _) => (w, .error .error)
      | (w, .ok _) => (w, .ok (.succeeded (some s.rewritten)))
    | .error (.mergeFailed info) =>
      if !opts.resolveMergeConflicts then (w, .ok (.declinedToMerge info))
      else if opts.forceInMemory then (w, .ok (.declinedToMerge info))
      else onDisk

end Verif
