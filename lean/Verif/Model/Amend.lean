import Verif.Model.Hide
import Verif.Model.Status
import Verif.Model.FinishRebase

/-!
The command `amend`: git-branchless/src/commands/amend.rs:36-382, and `check_out_commit` with `reset`
(git-branchless-lib/src/core/check_out.rs:107-200). How the new tree is made is in `Verif.Model.Tree`
(`amendFast`). The messages which are printed are not modelled.
-/

namespace Verif

/-- git/repo.rs:432-450 `AmendFastOptions`, as far as `amend` uses them. -/
inductive AmendSource where
  | index (paths : List Text)
  | workingCopy (entries : List StatusEntry)
deriving DecidableEq

/-- git/repo.rs:452-461 `is_empty`. -/
def AmendSource.isEmpty : AmendSource → Bool
  | .index paths => paths.isEmpty
  | .workingCopy entries => entries.isEmpty

/-- amend.rs:114-137: what is to be amended. -/
def amendSource (status : List StatusEntry) : AmendSource :=
  let staged := status.filter fun e => e.indexStatus.isChanged
  let unstaged := status.filter fun e => e.workingCopyStatus.isChanged
  if !staged.isEmpty then .index (staged.flatMap StatusEntry.paths) else .workingCopy unstaged

/-- What the command depends on. -/
structure AmendEnv where
  /-- What the planner reads from the repository, see `PlanEnv`. -/
  patchId : Oid → Nat
  touchedPaths : Oid → Nat
  sortedCommitSet : List Oid → List Oid
  /-- dag.rs `commit_set_to_vec`: the members of a set in some order. -/
  toVec : List Oid → List Oid
  /-- The options. -/
  forceRewritePublicCommits : Bool
  detectDuplicateCommitsViaPatchId : Bool
  options : ExecOptions
  reparent : Bool
  /-- The index has conflicts. -/
  indexConflicts : Bool
  /-- `get_status`: the snapshot which is made, and the status; nothing if there is an error. -/
  status : Option (Oid × List StatusEntry)
  /-- `amend_fast` of the commit which is checked out: the tree; nothing if there is an error. -/
  amendTree : AmendSource → Option Nat
  /-- repo.rs:1665-1690 `update_timestamp`, for an author (whose time is part of the number). -/
  retime : Nat → Nat
  /-- There is such a file or directory in the working directory. -/
  fileExists : Text → Bool
  /-- The time. -/
  now : Timestamp
  /-- What the execution of the plan depends on. -/
  exec : ExecEnv
  finish : List (Oid × CommitData) → FinishEnv
  disk : OnDiskEnv

/-- Why nothing is done, all with exit code 1. -/
inductive AmendRefusal where
  /-- amend.rs:63-69 -/
  | noHead
  /-- amend.rs:74-80 -/
  | conflicts
  | planner (e : BuildRebasePlanError)
deriving DecidableEq

/-- How `amend` ends. -/
inductive AmendOutcome where
  /-- An `eyre` error, or a panic. -/
  | error
  | refused (e : AmendRefusal)
  /-- amend.rs:138-144, exit code 0. -/
  | nothing
  | failed (exitCode : Nat)
  /-- Exit code 0. With the reason if the commits on top were not rebased (amend.rs:330-344). -/
  | done (declined : Option FailedMergeInfo)
deriving DecidableEq

/-! ### `git reset` -/

/-- How git finds the commit for the name of a revision (gitrevisions(7), "<refname>"): an object id, or the
first reference of this name in a list of places. Only names without special syntax are modelled, and no
abbreviated object ids. -/
def gitResolve (isCommit : Oid → Bool) (g : GitState) (name : Text) : Option Oid :=
  let byName := [name, t!"refs/" ++ name, t!"refs/tags/" ++ name, t!"refs/heads/" ++ name,
    t!"refs/remotes/" ++ name, t!"refs/remotes/" ++ name ++ t!"/HEAD"].findSome? g.refs.get?
  if name = t!"HEAD" then g.headInfo.oid
  else if name.length = 40 then
    match Oid.parse name with
    | some o => if isCommit o then some o else none
    | none => byName
  else byName

/-- `git reset <target>` (an external program): the branch which is checked out, or else `HEAD` itself, goes
to the commit. git does not accept an argument which might be a file too. The index, and the events which are
recorded by the hook, are not modelled. -/
def gitReset (isCommit : Oid → Bool) (fileExists : Text → Bool) (g : GitState) (target : Text) :
    Option GitState :=
  match gitResolve isCommit g target with
  | none => none
  | some o =>
    if fileExists target then none
    else
      match g.head with
      | .missing => none
      | .detached _ => some { g with head := .detached o }
      | .symbolic name => some { g with refs := AMap.insert g.refs name o }

/-- check_out.rs:105-199 `check_out_commit` with `reset`; the exit code of git if it fails. -/
def resetToCommit (isCommit : Oid → Bool) (fileExists : Text → Bool) (g : GitState)
    (target : CheckoutTarget) : Except Nat GitState :=
  let text := match target with
    | .reference name => (categorize name).renderSuffix
    | .oid o => o.toText
  match gitReset isCommit fileExists g text with
  | some g => .ok g
  | none => .error 128

/-! ### amending the commit -/

/-- amend.rs:148-164: the amended commit. -/
def AmendEnv.amended (env : AmendEnv) (head : CommitData) (tree : Nat) : CommitData :=
  { head with
    tree
    author := if env.exec.preserveTimestamps then head.author else env.retime head.author
    time := env.exec.newTime head.time }

/-- amend.rs:166-210: the new commit is kept alive, the event recorded, the branches are moved, and the new
commit is checked out. The result says how the command ends if it fails here. -/
def amendHead (env : AmendEnv) (tx : TxId) (w : RepoWorld) (head new : Oid) (data : CommitData) :
    RepoWorld × Option AmendOutcome :=
  let fe := env.finish [(new, data)]
  match markCommitReachable fe.move.isCommit w.git.refs new with
  | .error _ => (w, some .error)
  | .ok refs =>
    let info := w.git.headInfo
    let w := { w with
      git := { w.git with refs }
      db := w.db.addEvents [.rewrite env.now tx (.nonZero head) (.nonZero new)] }
    let moved := moveBranches fe.move w.git.refs [(head, .nonZero new)]
    let w := { w with
      git := { w.git with refs := moved.refs }
      db := match moved.report with
        | some moves => runReferenceTransactionHook fe w.db moves
        | none => w.db }
    if !moved.ok then (w, some .error)
    else
      let target := match info.referenceName with
        | some name => .reference name
        | none => .oid new
      match resetToCommit fe.move.isCommit env.fileExists w.git target with
      | .error code => (w, some (.failed code))
      | .ok git => ({ w with git }, none)

/-- amend.rs:181-186 (dag.rs:281-316 `sync_from_oids`): the new commit is added to the graph. Its parents are
there already. -/
def Dag.addCommit (d : Dag) (new : Oid) (parents : List Oid) : Dag :=
  if d.graph.nodes.contains new then d else { d with graph := ⟨(new, parents) :: d.graph.entries⟩ }

/-! ### the commits on top of it -/

/-- amend.rs:239-249: the commits on top of which a commit is put. -/
def amendedParents (head new : Oid) (parents : List Oid) : List Oid :=
  parents.map fun p => if p = head then new else p

/-- amend.rs:237-277: a commit on top of the one which was amended. The objects which were made are
accumulated. -/
def amendOne (env : AmendEnv) (head new : Oid) (s : RebasePlanBuilder × List (Oid × CommitData)) (c : Oid) :
    Except PlanFail (RebasePlanBuilder × List (Oid × CommitData)) :=
  match env.exec.commits c with
  | none => .error .error
  | some d =>
    let parents := amendedParents head new d.parents
    match s.1.moveSubtree c parents with
    | .error e => .error e
    | .ok b =>
      if !env.reparent then .ok (b, s.2)
      else if parents.any fun p => (env.exec.find s.2 p).isNone then .error .error
      else
        match d.message with
        | none => .error .error
        | some _ =>
          match env.exec.createCommit { d with parents } with
          | none => .error .error
          | some r =>
            match b.replaceCommit c r with
            | .error e => .error e
            | .ok b => .ok (b, (r, { d with parents }) :: s.2)

/-- The environment of the planner; the objects which were made can be read too. -/
def AmendEnv.planEnv (env : AmendEnv) (d : Dag) (made : List (Oid × CommitData)) : PlanEnv :=
  ⟨d, env.patchId, env.touchedPaths, env.sortedCommitSet,
    fun r => ((env.exec.find made r).map (·.parents)).getD []⟩

/-- amend.rs:220-222: the commits on top. -/
def amendDescendants (d : Dag) (head : Oid) : List Oid :=
  d.filterVisibleCommits (d.graph.descendants (d.graph.children [head]))

/-- amend.rs:212-288: the plan, and the objects which were made. -/
def amendPlan (env : AmendEnv) (d : Dag) (head new : Oid) (data : CommitData) :
    Except PlanFail (Except BuildRebasePlanError (Option RebasePlan) × List (Oid × CommitData)) :=
  let descendants := amendDescendants d head
  match verifyRewriteSet d env.forceRewritePublicCommits env.detectDuplicateCommitsViaPatchId descendants with
  | .error e => .ok (.error e, [])
  | .ok permissions =>
    match (env.toVec descendants).foldlM (amendOne env head new)
        (⟨env.planEnv d [], permissions, [], []⟩, [(new, data)]) with
    | .error e => .error e
    | .ok (b, made) =>
      match RebasePlanBuilder.build { b with env := env.planEnv d made } with
      | .error e => .error e
      | .ok plan => .ok (plan, made)

/-- amend.rs:290-349: the execution of the plan. -/
def executeAmend (env : AmendEnv) (w : RepoWorld)
    (plan : Except PlanFail (Except BuildRebasePlanError (Option RebasePlan) × List (Oid × CommitData))) :
    RepoWorld × AmendOutcome :=
  match plan with
  | .error _ => (w, .error)
  | .ok (.error e, _) => (w, .refused (.planner e))
  | .ok (.ok none, _) => (w, .done none)
  | .ok (.ok (some plan), made) =>
    match executeRebasePlan { env.exec with commits := env.exec.find made }
        (fun created => env.finish (created ++ made)) env.disk env.options plan w with
    | (w, .error _) => (w, .error)
    | (w, .ok (.succeeded _)) => (w, .done none)
    | (w, .ok (.declinedToMerge info)) => (w, .done (some info))
    | (w, .ok (.failed code)) => (w, .failed code)

/-- amend.rs:114-380: with the status, after the snapshot was recorded. -/
def amendWith (env : AmendEnv) (tx : TxId) (w : RepoWorld) (d : Dag) (head : Oid) (headData : CommitData)
    (status : List StatusEntry) : RepoWorld × AmendOutcome :=
  if (amendSource status).isEmpty then (w, .nothing)
  else
    match env.amendTree (amendSource status) with
    | none => (w, .error)
    | some tree =>
      match env.exec.createCommit (env.amended headData tree) with
      | none => (w, .error)
      | some new =>
        match amendHead env tx w head new (env.amended headData tree) with
        | (w, some outcome) => (w, outcome)
        | (w, none) =>
          executeAmend env w (amendPlan env (d.addCommit new headData.parents) head new
            (env.amended headData tree))

/-- amend.rs:36-382 `amend`. -/
def amend (env : AmendEnv) (main : Text) (graph : CommitGraph Oid) (txEnv : Option Text) (w : RepoWorld) :
    RepoWorld × AmendOutcome :=
  match openRepoDag graph main w with
  | none => (w, .error)
  | some (_, d) =>
    match w.git.headInfo.oid with
    | none => (w, .refused .noHead)
    | some head =>
      match env.exec.commits head with
      | none => (w, .error)
      | some headData =>
        if env.indexConflicts then (w, .refused .conflicts)
        else
          match verifyRewriteSet d env.forceRewritePublicCommits env.detectDuplicateCommitsViaPatchId
              (d.filterVisibleCommits (d.graph.descendants [head])) with
          | .error e => (w, .refused (.planner e))
          | .ok _ =>
            let (tx, db) := w.db.makeTransactionId txEnv t!"amend"
            let w := { w with db }
            match env.status with
            | none => (w, .error)
            | some (snapshot, status) =>
              let event := .snapshot env.now tx (.nonZero head) snapshot w.git.headInfo.referenceName
              let w := { w with db := w.db.addEvents [event] }
              amendWith env tx w d head headData status

end Verif
