import Verif.Model.Move
import Verif.Model.Snapshot

/-!
The command `record`: git-branchless-record/src/lib.rs. The interactive selection of changes is in
Verif/Model/RecordDiff.lean (here see `RecordEnv.commit`); the output is not modelled. Of git itself are modelled, as far as the references are
concerned: `git commit`, `git checkout -b`, `git branch -f` and `git update-ref -d`, with the hooks which they
run (but not the hook `post-checkout`, which only records an update of `HEAD`).
-/

namespace Verif

/-- The options (git-branchless-opts/src/lib.rs:304-332). `--detach` excludes `--create`, and `--stash`
excludes both. -/
structure RecordArgs where
  interactive : Bool
  create : Option Text
  detach : Bool
  insert : Bool
  stash : Bool

/-- What the command depends on. -/
structure RecordEnv where
  /-- The kind of changes in the working copy (C32); nothing if there is an error. -/
  status : Option ChangesType
  /-- `git commit` (an external program), with `--all` or not, or after an interactive selection: the new
  commit, or the exit code, or (nothing) an `eyre` error. -/
  commit : RecordAction → Except (Option Nat) Oid
  /-- git accepts the text as the name of a branch. -/
  validName : Text → Bool
  /-- What is read from the repository (the commits and their graph), which changes with the new commit. -/
  repo : RepoWorld → MoveCmdEnv
  graph : RepoWorld → CommitGraph Oid

/-- How moving the siblings ends. -/
inductive InsertOutcome where
  /-- An `eyre` error, or a panic. -/
  | error
  /-- Refused by the planner, exit code 1. -/
  | refused (e : BuildRebasePlanError)
  /-- lib.rs:507-532: a message, exit code 0. -/
  | publicCommits (commits : List Oid)
  /-- A message, exit code 0. -/
  | declined (info : FailedMergeInfo)
  | failed (exitCode : Nat)
  | done
deriving DecidableEq

/-- How `record` ends. -/
inductive RecordOutcome where
  /-- An `eyre` error. -/
  | error
  /-- lib.rs:98-104, exit code 0. -/
  | nothing
  /-- lib.rs:106-116 and 139-148, exit code 1. -/
  | refused
  | failed (exitCode : Nat)
  | done
  /-- With `--insert`. -/
  | inserted (outcome : InsertOutcome)
deriving DecidableEq

/-! ### what git does -/

/-- The lines which git gives to the hook `reference-transaction` (githooks(5)), and the hook. -/
def runHookFor (fe : FinishEnv) (db : Db) (updates : List (MaybeZero × MaybeZero × Text)) : Db :=
  (hookReferenceTransaction db (some fe.tx) t!"committed" fe.now fe.packedFile fe.resolve
    (updates.map fun u => some (u.1.toText ++ ' ' :: (u.2.1.toText ++ ' ' :: u.2.2)))).2

/-- A commit or nothing, as in the lines for the hook. -/
def oidOrZero : Option Oid → MaybeZero
  | some o => .nonZero o
  | none => .zero

/-- `HEAD`, or the branch which is checked out, goes to a commit. -/
def GitState.advance (g : GitState) (new : Oid) : GitState :=
  match g.head with
  | .symbolic name => { g with refs := AMap.insert g.refs name new }
  | _ => { g with head := .detached new }

/-- The hook `post-commit` (git-branchless-hook/src/lib.rs:84-159), see `hookPostCommit`; here with the
reference which keeps the commit alive, and the errors if there is no main branch or the events cannot be
read. The time of the commit is taken to be `fe.now`. -/
def runPostCommitHook (fe : FinishEnv) (w : RepoWorld) : RepoWorld :=
  match w.git.headInfo.oid with
  | none => w
  | some new =>
    match markCommitReachable (fun _ => true) w.git.refs new with
    | .error _ => w
    | .ok refs =>
      let w := { w with git := { w.git with refs } }
      if (refs.get? fe.move.mainBranch).isNone || w.db.getEvents.isNone then w
      else
        let h := hookPostCommit ⟨w.rebaseDir.isSome, w.deferred, w.db, []⟩ (some fe.tx) t!"post-commit"
          (some new) fe.now
        { w with db := h.db, deferred := h.deferred }

/-- `git commit` (an external program): the branch which is checked out, or else `HEAD` itself, goes to the
new commit, and hooks are run. -/
def gitCommit (fe : FinishEnv) (w : RepoWorld) (new : Oid) : RepoWorld :=
  let names := t!"HEAD" :: w.git.headInfo.referenceName.toList
  let update := fun name => (oidOrZero w.git.headInfo.oid, MaybeZero.nonZero new, name)
  runPostCommitHook fe { w with
    git := w.git.advance new
    db := runHookFor fe w.db (names.map update) }

/-- `git branch -f <suffix> <commit>` (an external program); nothing if it fails. -/
def gitBranchForce (fe : FinishEnv) (w : RepoWorld) (suffix : Text) (target : Oid) : Option RepoWorld :=
  let name := t!"refs/heads/" ++ suffix
  if fe.move.refuses name then none
  else
    match createReference w.git.refs name target with
    | .error _ => none
    | .ok refs => some { w with
        git := { w.git with refs }
        db := runHookFor fe w.db [(oidOrZero (w.git.refs.get? name), .nonZero target, name)] }

/-- `git update-ref -d <name> <commit>` (an external program); nothing if it fails. -/
def gitDeleteRef (fe : FinishEnv) (w : RepoWorld) (name : Text) (old : Oid) : Option RepoWorld :=
  if fe.move.refuses name then none
  else if w.git.refs.get? name ≠ some old then none
  else some { w with
    git := { w.git with refs := deleteReference w.git.refs name }
    db := runHookFor fe w.db [(.nonZero old, .zero, name)] }

/-- lib.rs:123-136 (check_out.rs:107-200 `check_out_commit` without a target): `git checkout -b`. (If there
is exactly one branch at the commit, its name is given too, which makes no difference.) The result says how
the command ends if it fails here. -/
def createBranch (env : RecordEnv) (fe : FinishEnv) (w : RepoWorld) (suffix : Text) :
    RepoWorld × Option RecordOutcome :=
  let name := t!"refs/heads/" ++ suffix
  if fe.checkout.autoSwitch && (w.git.refs.get? fe.checkout.mainBranch).isNone then (w, some .error)
  else if !env.validName suffix || (w.git.refs.get? name).isSome || fe.move.refuses name then
    (w, some (.failed 128))
  else
    match w.git.headInfo.oid with
    | none => ({ w with git := { w.git with head := .symbolic name } }, none)
    | some o =>
      match createReference w.git.refs name o with
      | .error _ => (w, some (.failed 128))
      | .ok refs =>
        ({ w with git := ⟨refs, .symbolic name⟩, db := runHookFor fe w.db [(.zero, .nonZero o, name)] }, none)

/-! ### detaching -/

/-- lib.rs:172-206: the branch which is checked out is moved back to the parent. -/
def detachBranch (commits : Oid → Option CommitData) (fe : FinishEnv) (w : RepoWorld) :
    RepoWorld × Option RecordOutcome :=
  match w.git.headInfo with
  | ⟨some oid, some name⟩ =>
    match commits oid with
    | none => (w, some .error)
    | some d =>
      match d.parents with
      | [] =>
        match gitDeleteRef fe w name oid with
        | none => (w, some (.failed 1))
        | some w => (w, none)
      | [parent] =>
        let w := { w with git := w.git.detachHead w.git.headInfo }
        match gitBranchForce fe w (categorize name).renderSuffix parent with
        | none => (w, some (.failed 128))
        | some w => (w, none)
      | _ => (w, some .error)
  | _ => (w, none)

/-- lib.rs:207-218: what is checked out with `--stash`. -/
def stashTarget : HeadInfo → Option CheckoutTarget
  | ⟨_, some name⟩ => some (.reference name)
  | ⟨some oid, none⟩ => some (.oid oid)
  | ⟨none, none⟩ => none

/-- lib.rs:170-235: `--detach` and `--stash`. -/
def detachOrStash (commits : Oid → Option CommitData) (fe : FinishEnv) (detach stash : Bool) (w : RepoWorld) :
    RepoWorld × Option RecordOutcome :=
  if detach || stash then
    let target := stashTarget w.git.headInfo
    match detachBranch commits fe w with
    | (w, some outcome) => (w, some outcome)
    | (w, none) =>
      match stash, target with
      | true, some target =>
        match checkOutCommit fe.checkout w.git target with
        | .error _ => (w, some .error)
        | .ok (git, true) => ({ w with git }, none)
        | .ok (git, false) => ({ w with git }, some (.failed 1))
      | _, _ => (w, none)
  else (w, none)

/-! ### `--insert` -/

/-- lib.rs:444-448: the siblings of a commit. -/
def siblingsOf (d : Dag) (head : Oid) : List Oid :=
  let children := d.graph.children (d.graph.parents [head])
  d.filterVisibleCommits (CommitGraph.diff children [head])

/-- lib.rs:466-476: the commits on top of which a sibling is put. -/
def insertedParents (head : Oid) (headParents parents : List Oid) : List Oid :=
  parents.map fun p => if headParents.contains p then head else p

/-- lib.rs:463-479: one sibling. -/
def insertOne (commits : Oid → Option CommitData) (head : Oid) (headParents : List Oid)
    (b : RebasePlanBuilder) (c : Oid) : Except PlanFail RebasePlanBuilder :=
  match commits c with
  | none => .error .error
  | some d => b.moveSubtree c (insertedParents head headParents d.parents)

/-- lib.rs:455-484: the plan. -/
def insertPlan (env : MoveCmdEnv) (d : Dag) (head : Oid) (headParents : List Oid) :
    Except PlanFail (Except BuildRebasePlanError (Option RebasePlan)) :=
  match verifyRewriteSet d false true (siblingsOf d head) with
  | .error e => .ok (.error e)
  | .ok permissions =>
    match (env.nav.toVec (siblingsOf d head)).foldlM (insertOne env.exec.commits head headParents)
        ⟨env.planEnv d, permissions, [], []⟩ with
    | .error e => .error e
    | .ok b => b.build

/-- lib.rs:418-568 `insert_before_siblings`. -/
def insertBeforeSiblings (env : MoveCmdEnv) (main : Text) (graph : CommitGraph Oid) (w : RepoWorld) :
    RepoWorld × InsertOutcome :=
  if (w.git.referencesSnapshot main).isNone || w.db.getEvents.isNone then (w, .error)
  else
    match w.git.headInfo.oid with
    | none => (w, .done)
    | some head =>
      match openRepoDag graph main w, env.exec.commits head with
      | some (_, d), some data =>
        match insertPlan env d head data.parents with
        | .error _ => (w, .error)
        | .ok (.ok none) => (w, .done)
        | .ok (.error (.movePublicCommits commits)) => (w, .publicCommits commits)
        | .ok (.error e) => (w, .refused e)
        | .ok (.ok (some plan)) =>
          match executeRebasePlan env.exec env.finish env.disk ⟨true, false, false⟩ plan w with
          | (w, .error _) => (w, .error)
          | (w, .ok (.succeeded _)) => (w, .done)
          | (w, .ok (.declinedToMerge info)) => (w, .declined info)
          | (w, .ok (.failed code)) => (w, .failed code)
      | _, _ => (w, .error)

/-! ### the command -/

/-- lib.rs:170-246: after the commit was made. -/
def afterCommit (env : RecordEnv) (main : Text) (args : RecordArgs) (tx : TxId) (w : RepoWorld) :
    RepoWorld × RecordOutcome :=
  let fe := { (env.repo w).finish [] with tx := tx.toText }
  match detachOrStash (env.repo w).exec.commits fe args.detach args.stash w with
  | (w, some outcome) => (w, outcome)
  | (w, none) =>
    if args.insert then
      let (w, outcome) := insertBeforeSiblings (env.repo w) main (env.graph w) w
      (w, .inserted outcome)
    else (w, .done)

/-- lib.rs:75-246 `record`. -/
def record (env : RecordEnv) (main : Text) (txEnv : Option Text) (args : RecordArgs) (w : RepoWorld) :
    RepoWorld × RecordOutcome :=
  let (tx, db) := w.db.makeTransactionId txEnv t!"record"
  let w := { w with db }
  let fe (w : RepoWorld) : FinishEnv := { (env.repo w).finish [] with tx := tx.toText }
  match env.status with
  | none => (w, .error)
  | some .none => (w, .nothing)
  | some .conflicts => (w, .refused)
  | some kind =>
    match (match args.create with
      | none => (w, none)
      | some name => createBranch env (fe w) w name) with
    | (w, some outcome) => (w, outcome)
    | (w, none) =>
      if recordAction args.interactive kind = .refused then (w, .refused)
      else
        match env.commit (recordAction args.interactive kind) with
        | .error none => (w, .error)
        | .error (some code) => (w, .failed code)
        | .ok new => afterCommit env main args tx (gitCommit (fe w) w new)

end Verif
