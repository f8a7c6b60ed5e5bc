import Verif.Model.Hide
import Verif.Model.Plan
import Verif.Model.Evolve

/-!
Restacking abandoned commits and branches. Model of git-branchless/src/commands/restack.rs and of
git-branchless-lib/src/core/rewrite/evolve.rs:60-82.
-/

namespace Verif

/-- evolve.rs:71-75: where the children of a commit should go. -/
def abandonedDest (r : Replayer) (c : Cursor) (oid : Oid) : Option Oid :=
  match findRewriteTarget r c oid with
  | some (.nonZero new) => some new
  | some .zero => some oid
  | none => none

/-- evolve.rs:65-82 `find_abandoned_children`. -/
def findAbandonedChildren (d : Dag) (r : Replayer) (c : Cursor) (oid : Oid) : Option (Oid × List Oid) :=
  match abandonedDest r c oid with
  | none => none
  | some dest => some (dest, CommitGraph.diff (d.filterVisibleCommits (d.graph.children [oid]))
      d.obsoleteCommits)

/-- What `restack` depends on, besides what the end of a rebase depends on. -/
structure RestackEnv where
  /-- dag.rs:369-383 `commit_set_to_vec`: the members of a set in some order, which depends on how the
  set was computed. -/
  toVec : List Oid → List Oid
  /-- What the planner reads from the repository, see `PlanEnv`. -/
  patchId : Oid → Nat
  touchedPaths : Oid → Nat
  sortedCommitSet : List Oid → List Oid
  /-- restack.rs:308-316: the options for the planner. -/
  forceRewritePublicCommits : Bool
  detectDuplicateCommitsViaPatchId : Bool
  /-- What the execution of the plan depends on. -/
  exec : ExecEnv
  finish : List (Oid × CommitData) → FinishEnv
  disk : OnDiskEnv
  options : ExecOptions

/-- The environment of the planner. No commits are replaced. -/
def RestackEnv.planEnv (env : RestackEnv) (d : Dag) : PlanEnv :=
  ⟨d, env.patchId, env.touchedPaths, env.sortedCommitSet, fun _ => []⟩

/-- restack.rs:97-125: the children to move, with their destinations; `commits` are those given by the
user. -/
def restackRebases (env : RestackEnv) (d : Dag) (r : Replayer) (commits : Option (List Oid)) :
    List (Oid × List Oid) :=
  (env.toVec (commits.getD d.obsoleteCommits)).filterMap
    (findAbandonedChildren d r r.makeDefaultCursor)

/-- restack.rs:146-155: the loop which adds the constraints. -/
def addRebases (b : RebasePlanBuilder) (rebases : List (Oid × List Oid)) :
    Except PlanFail RebasePlanBuilder :=
  (rebases.flatMap fun x => x.2.map fun child => (child, x.1)).foldlM
    (fun b x => b.moveSubtree x.1 [x.2]) b

/-- restack.rs:128-155: the builder with the constraints, or the reason to refuse. -/
def restackBuilder (env : RestackEnv) (d : Dag) (r : Replayer) (commits : Option (List Oid)) :
    Except PlanFail (Except BuildRebasePlanError RebasePlanBuilder) :=
  let rebases := restackRebases env d r commits
  match verifyRewriteSet d env.forceRewritePublicCommits env.detectDuplicateCommitsViaPatchId
      (rebases.flatMap Prod.snd) with
  | .error e => .ok (.error e)
  | .ok permissions => (addRebases ⟨env.planEnv d, permissions, [], []⟩ rebases).map .ok

/-- restack.rs:127-173: the plan. -/
def restackPlan (env : RestackEnv) (d : Dag) (r : Replayer) (commits : Option (List Oid)) :
    Except PlanFail (Except BuildRebasePlanError (Option RebasePlan)) :=
  match restackBuilder env d r commits with
  | .error e => .error e
  | .ok (.error e) => .ok (.error e)
  | .ok (.ok b) => b.build

/-- How `restack` ends. -/
inductive RestackOutcome where
  /-- An `eyre` error, or a panic. -/
  | error
  /-- Refused by the planner, exit code 1. -/
  | refused (e : BuildRebasePlanError)
  /-- A merge conflict, exit code 1. -/
  | declined (info : FailedMergeInfo)
  | failed (exitCode : Nat)
  | done
deriving DecidableEq

/-- restack.rs:84-209 `restack_commits`. -/
def restackCommits (env : RestackEnv) (d : Dag) (r : Replayer) (commits : Option (List Oid))
    (w : RepoWorld) : RepoWorld × RestackOutcome :=
  match restackPlan env d r commits with
  | .error _ => (w, .error)
  | .ok (.error e) => (w, .refused e)
  | .ok (.ok none) => (w, .done)
  | .ok (.ok (some plan)) =>
    match executeRebasePlan env.exec env.finish env.disk env.options plan w with
    | (w, .error _) => (w, .error)
    | (w, .ok (.succeeded _)) => (w, .done)
    | (w, .ok (.declinedToMerge info)) => (w, .declined info)
    | (w, .ok (.failed code)) => (w, .failed code)

/-- restack.rs:223-247: the rewritten commits among those at which there are branches. -/
def rewrittenBranchTargets (r : Replayer) (refs : Refs) : AMap Oid MaybeZero :=
  (localBranches refs).foldl (fun m b =>
    match findRewriteTarget r r.makeDefaultCursor b.2 with
    | some new => AMap.insert m b.2 new
    | none => m) []

/-- restack.rs:209-258 `restack_branches`; the flag is whether there was no error. -/
def restackBranches (env : FinishEnv) (w : RepoWorld) : RepoWorld × Bool :=
  match w.git.refs.get? env.move.mainBranch, w.db.getEvents with
  | some _, some es =>
    let rewritten := rewrittenBranchTargets (Replayer.fromEvents env.move.mainBranch es) w.git.refs
    if rewritten.isEmpty then (w, true)
    else
      let moved := moveBranches env.move w.git.refs rewritten
      ({ w with
          git := { w.git with refs := moved.refs }
          db := match moved.report with
            | some moves => runReferenceTransactionHook env w.db moves
            | none => w.db },
        moved.ok)
  | _, _ => (w, false)

/-- restack.rs:264-363 `restack`; `sets` is the result of `resolve_commits`. The exit code of the
smartlog which follows is not modelled. -/
def restack (env : RestackEnv) (branchEnv : FinishEnv) (graph : CommitGraph Oid) (txEnv : Option Text)
    (w : RepoWorld) (sets : List (List Oid)) : RepoWorld × RestackOutcome :=
  let (_, db) := w.db.makeTransactionId txEnv t!"restack"
  let w := { w with db }
  match openRepoDag graph branchEnv.move.mainBranch w with
  | none => (w, .error)
  | some (r, d) =>
    let commits := if sets.isEmpty then none else some sets.flatten
    match restackCommits env d r commits w with
    | (w, .done) =>
      match restackBranches branchEnv w with
      | (w, true) => (w, .done)
      | (w, false) => (w, .error)
    | (w, outcome) => (w, outcome)

end Verif
