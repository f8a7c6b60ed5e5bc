import Verif.Model.Reword
import Verif.Model.Hide
import Verif.Model.FinishRebase

/-!
The command `reword`: git-branchless-reword/src/lib.rs:82-328. What the revsets stand for (C38) is given. The
report at the end is not modelled.
-/

namespace Verif

/-- What the command depends on. -/
structure RewordEnv where
  /-- What the planner reads from the repository, see `PlanEnv`. -/
  patchId : Oid → Nat
  touchedPaths : Oid → Nat
  sortedCommitSet : List Oid → List Oid
  forceRewritePublicCommits : Bool
  /-- `core.commentChar` and `commit.template`. -/
  comment : Char
  template : Text
  /-- lib.rs:62-80 `edit_message`. -/
  edit : Text → Except Unit Text
  /-- `get_short_oid` -/
  short : Oid → Text
  /-- object.rs `get_summary`, as text; nothing if it cannot be read. -/
  summary : Oid → Option Text
  /-- What the execution of the plan depends on. -/
  exec : ExecEnv
  finish : List (Oid × CommitData) → FinishEnv
  disk : OnDiskEnv

/-- lib.rs:48-59 `InitialCommitMessages`, before it is known which commit is to be fixed up; with `fixUp`
there are the commits for which the revset stands (none if it is not valid). -/
inductive RewordMessages where
  | given (m : InitialMessages)
  | fixUp (commits : List Oid)

/-- Why nothing is done, all with exit code 1. -/
inductive RewordRefusal where
  | planner (e : BuildRebasePlanError)
  /-- lib.rs:151-156 -/
  | fixupNotAncestor
  /-- lib.rs:160-168 -/
  | fixupCount (n : Nat)
  /-- lib.rs:182-188 -/
  | identical
  /-- lib.rs:189-195 -/
  | empty
  /-- lib.rs:196-249 -/
  | mismatched (duplicates missing unexpected : List Text)
deriving DecidableEq

/-- How `reword` ends. -/
inductive RewordOutcome where
  /-- An `eyre` error, or a panic. -/
  | error
  | refused (e : RewordRefusal)
  /-- lib.rs:317-325: "Merge failed, but rewording shouldn't cause any merge failures", exit code 1. -/
  | declined (info : FailedMergeInfo)
  | failed (exitCode : Nat)
  | done
deriving DecidableEq

/-- The commits as they are used for the messages; nothing if one of them does not exist (which
`sorted_commit_set` rules out). -/
def rewordCommits (env : RewordEnv) (commits : List Oid) : Option (List RewordCommit) :=
  commits.mapM fun c => (env.exec.commits c).map fun d => ⟨c, env.short c, d.message⟩

/-- lib.rs:134-176: `--fixup`. The outer error stands for an `eyre` error. -/
def rewordMessages (env : RewordEnv) (d : Dag) (commits : List Oid) :
    RewordMessages → Except Unit (Except RewordRefusal InitialMessages)
  | .given m => .ok (.ok m)
  | .fixUp [target] =>
    if (d.graph.commonAncestors commits).contains target then
      match env.summary target with
      | none => .error ()
      | some s => .ok (.ok (.messages [t!"fixup! " ++ s]))
    else .ok (.error .fixupNotAncestor)
  | .fixUp commits => .ok (.error (.fixupCount commits.length))

/-- lib.rs:257-264: a commit with the new message is made, the commit is to stay on its parents, and to be
replaced. The objects which were made are accumulated. `amend_commit` (object.rs:295-315) changes nothing but
the message. -/
def rewordOne (env : RewordEnv) (messages : AMap Oid Text)
    (s : RebasePlanBuilder × List (Oid × CommitData)) (c : Oid) :
    Except PlanFail (RebasePlanBuilder × List (Oid × CommitData)) :=
  match AMap.get? messages c with
  | none => .error .panic
  | some m =>
    match env.exec.commits c with
    | none => .error .error
    | some d =>
      match env.exec.createCommit { d with message := some m } with
      | none => .error .error
      | some r =>
        match s.1.moveSubtree c d.parents with
        | .error e => .error e
        | .ok b =>
          match b.replaceCommit c r with
          | .error e => .error e
          | .ok b => .ok (b, (r, { d with message := some m }) :: s.2)

/-- The environment of the planner; the replacements are among the objects which were made. -/
def RewordEnv.planEnv (env : RewordEnv) (d : Dag) (made : List (Oid × CommitData)) : PlanEnv :=
  ⟨d, env.patchId, env.touchedPaths, env.sortedCommitSet,
    fun r => ((env.exec.find made r).map (·.parents)).getD []⟩

/-- lib.rs:252-280: the plan, and the objects which were made. -/
def rewordPlan (env : RewordEnv) (d : Dag) (permissions : RebasePlanPermissions) (messages : AMap Oid Text)
    (commits : List Oid) :
    Except PlanFail (Except BuildRebasePlanError (Option RebasePlan) × List (Oid × CommitData)) :=
  match commits.foldlM (rewordOne env messages) (⟨env.planEnv d [], permissions, [], []⟩, []) with
  | .error e => .error e
  | .ok (b, made) =>
    match RebasePlanBuilder.build { b with env := env.planEnv d made } with
    | .error e => .error e
    | .ok plan => .ok (plan, made)

/-- lib.rs:252-328: the execution of the plan, in memory. -/
def executeReword (env : RewordEnv) (txEnv : Option Text) (w : RepoWorld)
    (plan : Except PlanFail (Except BuildRebasePlanError (Option RebasePlan) × List (Oid × CommitData))) :
    RepoWorld × RewordOutcome :=
  match plan with
  | .error _ => (w, .error)
  | .ok (.error e, _) => (w, .refused (.planner e))
  | .ok (.ok none, _) => (w, .error)
  | .ok (.ok (some plan), made) =>
    match executeRebasePlan { env.exec with commits := env.exec.find made }
        (fun created => env.finish (created ++ made)) env.disk ⟨true, false, false⟩ plan
        { w with db := (w.db.makeTransactionId txEnv t!"reword").2 } with
    | (w, .error _) => (w, .error)
    | (w, .ok (.succeeded _)) => (w, .done)
    | (w, .ok (.declinedToMerge info)) => (w, .declined info)
    | (w, .ok (.failed code)) => (w, .failed code)

/-- lib.rs:178-328: with the messages. -/
def rewordWith (env : RewordEnv) (txEnv : Option Text) (w : RepoWorld) (d : Dag)
    (permissions : RebasePlanPermissions) (commits : List Oid) (messages : InitialMessages) :
    RepoWorld × RewordOutcome :=
  match rewordCommits env commits with
  | none => (w, .error)
  | some cs =>
    match prepareMessages env.comment env.template messages cs env.edit with
    | .error _ => (w, .error)
    | .ok .identical => (w, .refused .identical)
    | .ok .empty => (w, .refused .empty)
    | .ok (.mismatched duplicates missing unexpected) =>
      (w, .refused (.mismatched duplicates missing unexpected))
    | .ok (.succeeded messages) =>
      executeReword env txEnv w (rewordPlan env d permissions messages commits)

/-- lib.rs:82-328 `reword`. `commits` are those for which the revsets stand, in the order of
`sorted_commit_set`. -/
def reword (env : RewordEnv) (main : Text) (graph : CommitGraph Oid) (txEnv : Option Text) (w : RepoWorld)
    (commits : List Oid) (messages : RewordMessages) : RepoWorld × RewordOutcome :=
  match openRepoDag graph main w with
  | none => (w, .error)
  | some (_, d) =>
    match verifyRewriteSet d env.forceRewritePublicCommits false commits with
    | .error e => (w, .refused (.planner e))
    | .ok permissions =>
      match rewordMessages env d commits messages with
      | .error _ => (w, .error)
      | .ok (.error e) => (w, .refused e)
      | .ok (.ok messages) => rewordWith env txEnv w d permissions commits messages

end Verif
