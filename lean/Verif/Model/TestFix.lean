import Verif.Model.RewordCommand
import Verif.Model.Amend
import Verif.Model.TestRun

/-!
The command `git test fix`: git-branchless-test/src/lib.rs:565-657 `subcommand_run`, as it is called for it
(lib.rs:529-561), and lib.rs:1914-2181 `apply_fixes`. What the revset stands for (C38) is given, and so are the
options which concern only the tests (C71). The tests are run by C71's threads; what they do to the repository
(with the strategy `working-copy` the commits are checked out) is arbitrary.
-/

namespace Verif.TestFix

open Verif.TestRun

/-- What the command depends on. -/
structure FixEnv where
  /-- What the planner reads from the repository, see `PlanEnv`. -/
  patchId : Oid → Nat
  touchedPaths : Oid → Nat
  sortedCommitSet : List Oid → List Oid
  /-- dag.rs `commit_set_to_vec`. -/
  toVec : List Oid → List Oid
  forceRewritePublicCommits : Bool
  detectDuplicateCommitsViaPatchId : Bool
  forceOnDisk : Bool
  resolveMergeConflicts : Bool
  dryRun : Bool
  /-- `find_tree_or_fail` -/
  tree : Oid → Option Nat
  /-- What the execution of the plan depends on. -/
  exec : ExecEnv
  finish : List (Oid × CommitData) → FinishEnv
  disk : OnDiskEnv

/-- Why no commit is changed, all with exit code 1. -/
inductive FixRefusal where
  /-- lib.rs:399-406 -/
  | onDisk
  | planner (e : BuildRebasePlanError)
  /-- lib.rs:629-639: some test did not pass. -/
  | summary
deriving DecidableEq

/-- How the command ends. -/
inductive FixOutcome where
  /-- An `eyre` error, or a panic. -/
  | error
  | refused (e : FixRefusal)
  /-- lib.rs:2071-2074: "No commits to fix.", exit code 0. -/
  | nothing
  /-- lib.rs:2094-2097: "BUG: encountered merge conflicts", exit code 1. -/
  | declined (info : FailedMergeInfo)
  | failed (exitCode : Nat)
  /-- Exit code 0, with what is reported for each commit: its new version. -/
  | dryRun (report : List (Oid × MaybeZero))
  | done (report : List (Oid × MaybeZero))
deriving DecidableEq

/-- lib.rs:1927-1957: the commits whose test passed, with the tree that the command left. -/
def fixedTrees {N : Type} (outputs : List (N × TestStatus)) : List (N × Oid) :=
  outputs.filterMap fun x => match x.2 with
    | .passed _ ⟨_, some tree⟩ _ => some (x.1, tree)
    | .passed _ ⟨_, none⟩ _ | .checkoutFailed | .spawnTestFailed _ | .terminatedBySignal
    | .alreadyInProgress | .readCacheFailed _ | .indeterminate _ | .failed _ _ _ | .abort _ => none

/-- lib.rs:1961-1966 `Fix`, with the contents of the commit which was made. -/
structure Fix where
  original : Oid
  parents : List Oid
  fixed : Oid
  data : CommitData

/-- lib.rs:1969-2001: the commit with the files as the command left them. -/
def makeFix (env : FixEnv) (x : Oid × Oid) : Option Fix :=
  match env.exec.commits x.1 with
  | none => none
  | some d =>
    match d.message with
    | none => none
    | some _ =>
      if d.parents.any fun p => (env.exec.commits p).isNone then none
      else
        match env.tree x.2 with
        | none => none
        | some tree =>
          match env.exec.createCommit { d with tree } with
          | none => none
          | some fixed => some ⟨x.1, d.parents, fixed, { d with tree }⟩

/-- lib.rs:1967-2011: the fixes, without those which change nothing. -/
def makeFixes (env : FixEnv) (trees : List (Oid × Oid)) : Option (List Fix) :=
  (trees.mapM (makeFix env)).map fun fixes => fixes.filter fun f => f.original ≠ f.fixed

/-- lib.rs:2033-2041: a commit is replaced by its fix, on its parents. -/
def requestFix (b : RebasePlanBuilder) (f : Fix) : Except PlanFail RebasePlanBuilder :=
  match b.replaceCommit f.original f.fixed with
  | .error e => .error e
  | .ok b => b.moveSubtree f.original f.parents

/-- lib.rs:2059-2063: a commit above stays as it is, on its parents. -/
def requestKept (env : FixEnv) (b : RebasePlanBuilder) (c : Oid) : Except PlanFail RebasePlanBuilder :=
  match env.exec.commits c with
  | none => .error .error
  | some d =>
    match b.replaceCommit c c with
    | .error e => .error e
    | .ok b => b.moveSubtree c d.parents

/-- The objects which were made. -/
def madeBy (fixes : List Fix) : List (Oid × CommitData) := fixes.map fun f => (f.fixed, f.data)

/-- lib.rs:2013-2029: the fixed commits are added to the graph (dag.rs:281-316 `sync_from_oids`). Their parents
are there already. -/
def addFixes (d : Dag) (fixes : List Fix) : Dag := fixes.foldl (fun d f => d.addCommit f.fixed f.parents) d

/-- lib.rs:2043-2058: the commits above. -/
def commitsAbove (d : Dag) (fixes : List Fix) : List Oid :=
  let originals := fixes.map (·.original)
  CommitGraph.diff (d.filterVisibleCommits (d.graph.descendants originals)) originals

/-- The environment of the planner; the replacements are among the objects which were made. -/
def FixEnv.planEnv (env : FixEnv) (d : Dag) (made : List (Oid × CommitData)) : PlanEnv :=
  ⟨d, env.patchId, env.touchedPaths, env.sortedCommitSet,
    fun r => ((env.exec.find made r).map (·.parents)).getD []⟩

/-- lib.rs:2032-2068: the plan. `d` is the graph with the fixes. -/
def fixPlan (env : FixEnv) (d : Dag) (permissions : RebasePlanPermissions) (fixes : List Fix) :
    Except PlanFail (Except BuildRebasePlanError (Option RebasePlan)) :=
  match fixes.foldlM requestFix ⟨env.planEnv d (madeBy fixes), permissions, [], []⟩ with
  | .error e => .error e
  | .ok b =>
    match (env.toVec (commitsAbove d fixes)).foldlM (requestKept env) b with
    | .error e => .error e
    | .ok b => b.build

/-- lib.rs:2103-2122, 2136-2173: what is reported, given the new versions if they are known. -/
def reportFixes (fixes : List Fix) (rewritten : Option (AMap Oid MaybeZero)) : List (Oid × MaybeZero) :=
  let rewritten := match rewritten with
    | some rewritten => rewritten
    | none => fixes.map fun f => (f.original, .nonZero f.fixed)
  fixes.map fun f => (f.original, (AMap.get? rewritten f.original).getD (.nonZero f.fixed))

/-- lib.rs:1914-2181 `apply_fixes`. -/
def applyFixes (env : FixEnv) (w : RepoWorld) (d : Dag) (permissions : RebasePlanPermissions)
    (outputs : List (Oid × TestStatus)) : RepoWorld × FixOutcome :=
  match makeFixes env (fixedTrees outputs) with
  | none => (w, .error)
  | some fixes =>
    match fixPlan env (addFixes d fixes) permissions fixes with
    | .error _ => (w, .error)
    | .ok (.error e) => (w, .refused (.planner e))
    | .ok (.ok none) => (w, .nothing)
    | .ok (.ok (some plan)) =>
      if env.dryRun then (w, .dryRun (reportFixes fixes none))
      else
        match executeRebasePlan { env.exec with commits := env.exec.find (madeBy fixes) }
            (fun created => env.finish (created ++ madeBy fixes)) env.disk
            ⟨true, false, env.resolveMergeConflicts⟩ plan w with
        | (w, .error _) => (w, .error)
        | (w, .ok (.succeeded rewritten)) => (w, .done (reportFixes fixes rewritten))
        | (w, .ok (.declinedToMerge info)) => (w, .declined info)
        | (w, .ok (.failed code)) => (w, .failed code)

/-- lib.rs:565-657 `subcommand_run` for `git test fix`. `commits` are those for which the revset stands, `p` says
how they are tested, and `run` what happens when the tests are run (lib.rs:617-627, 1202-1254 `run_tests`). -/
def testFix (env : FixEnv) (main : Text) (graph : CommitGraph Oid) (txEnv : Option Text) (w : RepoWorld)
    (commits : List Oid) (p : Params { c // c ∈ commits })
    (run : RepoWorld → RepoWorld × Option (LoopOutput { c // c ∈ commits })) : RepoWorld × FixOutcome :=
  let w := { w with db := (w.db.makeTransactionId txEnv t!"test run").2 }
  match openRepoDag graph main w with
  | none => (w, .error)
  | some (_, d) =>
    if env.forceOnDisk then (w, .refused .onDisk)
    else
      match verifyRewriteSet d env.forceRewritePublicCommits env.detectDuplicateCommitsViaPatchId commits with
      | .error e => (w, .refused (.planner e))
      | .ok permissions =>
        match run w with
        | (w, none) => (w, .error)
        | (w, some out) =>
          let results := testResults p out
          if !summarySucceeds p results then (w, .refused .summary)
          else applyFixes env w d permissions (results.outputs.map fun x => (x.1.1, x.2))

end Verif.TestFix
