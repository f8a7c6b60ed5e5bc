import Verif.Model.Move

/-!
The command `sync`: git-branchless/src/commands/sync.rs. What the arguments stand for (C38) is given; the
output is not modelled, except for the lists of the stacks which were moved, which have conflicts and which
were up to date already.
-/

namespace Verif

/-- sync.rs:31-47 `get_stack_roots`. -/
def stackRoots (d : Dag) (sets : List (List Oid)) : List Oid :=
  let draftRoots := d.graph.roots d.draftCommits
  if sets.isEmpty then draftRoots
  else d.graph.roots (d.graph.range draftRoots sets.flatten)

/-- sync.rs:400-404: the stacks by what happened to them, given by their roots. -/
structure SyncReport where
  synced : List Oid
  /-- With merge conflicts. -/
  declined : List Oid
  /-- Those which are on the main branch already. -/
  skipped : List Oid
deriving DecidableEq

/-- How (a part of) `sync` ends. -/
inductive SyncOutcome where
  /-- An `eyre` error, or a panic. -/
  | error
  /-- Refused by the planner, exit code 1. -/
  | refused (e : BuildRebasePlanError)
  | failed (exitCode : Nat)
  | done (report : SyncReport)
deriving DecidableEq

/-- sync.rs:392-501 `execute_plans`: the plans are executed one after the other. The commits which an
earlier one created are not among those which `env.exec` knows; the plans were made before any of them was
executed and do not refer to them. -/
def executePlans (env : MoveCmdEnv) :
    RepoWorld → SyncReport → List (Oid × Option RebasePlan) → RepoWorld × SyncOutcome
  | w, report, [] => (w, .done report)
  | w, report, (root, none) :: rest =>
    executePlans env w { report with skipped := report.skipped ++ [root] } rest
  | w, report, (root, some plan) :: rest =>
    match executeRebasePlan env.exec env.finish env.disk env.options plan w with
    | (w, .error _) => (w, .error)
    | (w, .ok (.succeeded _)) =>
      executePlans env w { report with synced := report.synced ++ [root] } rest
    | (w, .ok (.declinedToMerge _)) =>
      executePlans env w { report with declined := report.declined ++ [root] } rest
    | (w, .ok (.failed code)) => (w, .failed code)

/-- sync.rs:348-367: the plan for one stack, nothing if it is on the main branch already. -/
def stackPlan (env : MoveCmdEnv) (b : RebasePlanBuilder) (mainOid root : Oid) :
    Except PlanFail (Except BuildRebasePlanError (Oid × Option RebasePlan)) :=
  match env.exec.commits root with
  | none => .error .error
  | some c =>
    if c.parents = [mainOid] then .ok (.ok (root, none))
    else
      match b.moveSubtree root [mainOid] with
      | .error e => .error e
      | .ok b =>
        match b.build with
        | .error e => .error e
        | .ok (.error e) => .ok (.error e)
        | .ok (.ok plan) => .ok (.ok (root, plan))

/-- sync.rs:340-381: the plans for all the stacks. Nothing is executed unless there is a plan for all. -/
def stackPlans (env : MoveCmdEnv) (b : RebasePlanBuilder) (mainOid : Oid) (roots : List Oid) :
    Except PlanFail (Except BuildRebasePlanError (List (Oid × Option RebasePlan))) :=
  match roots.mapM (stackPlan env b mainOid) with
  | .error e => .error e
  | .ok plans => .ok (plans.mapM id)

/-- sync.rs:297-390 `execute_sync_plans`. `sets` are the commits for which the arguments stand. -/
def syncStacks (env : MoveCmdEnv) (main : Text) (graph : CommitGraph Oid) (w : RepoWorld)
    (sets : List (List Oid)) : RepoWorld × SyncOutcome :=
  match openRepoDag graph main w, w.git.refs.get? main with
  | some (_, d), some mainOid =>
    match verifyRewriteSet d env.forceRewritePublicCommits env.detectDuplicateCommitsViaPatchId
        (stackRoots d sets) with
    | .error e => (w, .refused e)
    | .ok permissions =>
      match stackPlans env ⟨env.planEnv d, permissions, [], []⟩ mainOid
          (sortedCommitSet env.nav d (stackRoots d sets)) with
      | .error _ => (w, .error)
      | .ok (.error e) => (w, .refused e)
      | .ok (.ok plans) => executePlans env w ⟨[], [], []⟩ plans
  | _, _ => (w, .error)

/-- What the part of `sync` for the main branch depends on in addition. -/
structure PullEnv where
  /-- `get_upstream_branch` and its commit: nothing if the main branch does not track a branch, or if that
  has no commit. -/
  upstream : RepoWorld → Except Unit (Option Oid)
  /-- `git rebase <commit>`, with its exit code. -/
  gitRebase : Oid → RepoWorld → RepoWorld × Nat

/-- sync.rs:135-295 `execute_main_branch_sync_plan`. `graph` contains the commit of the upstream branch
(sync.rs:183-188). -/
def syncMain (env : MoveCmdEnv) (pull : PullEnv) (main : Text) (graph : CommitGraph Oid) (w : RepoWorld) :
    RepoWorld × SyncOutcome :=
  let nothing : SyncOutcome := .done ⟨[], [], []⟩
  match openRepoDag graph main w, w.git.refs.get? main, pull.upstream w with
  | some (_, d), some localOid, .ok (some upstreamOid) =>
    let commits := d.graph.only [localOid] [upstreamOid]
    if commits.isEmpty then
      if w.git.headInfo.referenceName = some main then
        match pull.gitRebase upstreamOid w with
        | (w, 0) => (w, nothing)
        | (w, code) => (w, .failed code)
      else
        match createReference w.git.refs main upstreamOid with
        | .error _ => (w, .error)
        | .ok refs => ({ w with git := { w.git with refs := refs } }, nothing)
    else
      match verifyRewriteSet d true env.detectDuplicateCommitsViaPatchId commits with
      | .error e => (w, .refused e)
      | .ok permissions =>
        match env.nav.toVec (d.graph.roots commits) with
        | [root] =>
          match RebasePlanBuilder.moveSubtree ⟨env.planEnv d, permissions, [], []⟩ root [upstreamOid] with
          | .error _ => (w, .error)
          | .ok b =>
            match b.build with
            | .error _ => (w, .error)
            | .ok (.error e) => (w, .refused e)
            | .ok (.ok none) => (w, nothing)
            | .ok (.ok (some plan)) => executePlans env w ⟨[], [], []⟩ [(root, some plan)]
        | _ => (w, nothing)
  | some _, some _, .ok none => (w, nothing)
  | _, _, _ => (w, .error)

/-- What the whole command depends on. What is read from the repository (the commits and their graph) is
different after the upstream branch was fetched, and after the main branch was rebased. -/
structure SyncEnv where
  repo : RepoWorld → MoveCmdEnv
  graph : RepoWorld → CommitGraph Oid
  pull : PullEnv
  /-- `git fetch --all`, with its exit code. -/
  fetch : RepoWorld → RepoWorld × Nat
  /-- The commits for which the arguments stand. -/
  sets : RepoWorld → List (List Oid)

/-- sync.rs:50-135 `sync`. -/
def syncCommand (env : SyncEnv) (main : Text) (txEnv : Option Text) (pull : Bool) (w : RepoWorld) :
    RepoWorld × SyncOutcome :=
  let start (message : Text) (w : RepoWorld) : RepoWorld :=
    { w with db := (w.db.makeTransactionId txEnv message).2 }
  let sync (w : RepoWorld) := syncStacks (env.repo w) main (env.graph w) w (env.sets w)
  let w := start t!"sync fetch" w
  if pull then
    match env.fetch w with
    | (w, 0) =>
      let w := start t!"sync" w
      match syncMain (env.repo w) env.pull main (env.graph w) w with
      | (w, .done _) => sync w
      | (w, outcome) => (w, outcome)
    | (w, code) => (w, .failed code)
  else sync (start t!"sync" w)

end Verif
