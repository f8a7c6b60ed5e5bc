import Verif.Model.RewordCommand
import Verif.Model.TestRun
import Verif.Model.Submit
import Verif.Model.Describe

/-!
The forge for Phabricator: git-branchless-submit/src/phabricator.rs, and git-branchless-submit/src/lib.rs:214-518
`submit` with it. What the revsets stand for (C38) is given. The mock of `arc` for the tests of git-branchless is not
modelled, and neither is phabricator.rs:771-876 `query_remote_dependencies`, which is used only in an example program.

`arc` is run in two ways. `arc diff` is run for each commit by `run_tests` (C71); what it does to the repository and
to Phabricator is arbitrary. `arc call-conduit` is modelled with the two methods of Phabricator for which it is used.
-/

namespace Verif.Phabricator

open Verif.TestRun

/-! ### Phabricator -/

/-- phabricator.rs:108-119 `DifferentialQueryRevisionResponse`, without the id. -/
structure Revision where
  phid : Text
  hashes : List (Text × Text)
  /-- The revisions on which this one depends, by their `phid`. -/
  dependsOn : List Text
deriving DecidableEq

/-- The revisions in Phabricator, by their ids. (The ids are numbers there. An id which is written with leading
zeros is not found here.) -/
abbrev Revisions := AMap Text Revision

/-- What `arc call-conduit -- differential.revision.edit` says. -/
inductive EditAnswer where
  | applied
  /-- The exit code is 0, and the answer is an error message (see phabricator.rs:76-97 `ConduitResponse`). -/
  | refused
  /-- The exit code is not 0. -/
  | failed (exitCode : Nat)
  /-- `arc` cannot be run. -/
  | notRun
deriving DecidableEq

/-- How Phabricator is reached. -/
structure Conduit where
  /-- `differential.query` with these ids is not answered, or with an error message. -/
  queryFails : Revisions → List Text → Bool
  /-- `differential.revision.edit` of the revision with this id, to depend on the revisions with these `phid`s. -/
  edit : Revisions → Text → List Text → EditAnswer

/-- Phabricator: the transaction `parents.set`. -/
def setParents (s : Revisions) (id : Text) (phids : List Text) : Revisions :=
  s.map fun x => if x.1 = id then (x.1, { x.2 with dependsOn := phids }) else x

/-- phabricator.rs:715-769 `query_revisions` with ids; nothing is asked if there are none. An id which is not known
to Phabricator is not in the answer. -/
def queryRevisions (q : Conduit) (s : Revisions) (ids : List Text) : Option (List (Text × Revision)) :=
  if ids.isEmpty then some []
  else if q.queryFails s ids then none
  else some (s.filter fun x => ids.contains x.1)

/-! ### the status of commits -/

/-- phabricator.rs:1019-1050 `get_revision_id`, for a commit which was found. The regular expression is that of
`extractDiffNumber`, except that the letter is not part of what is captured. (It is matched against the bytes of the
message here. A message which is not valid UTF-8 has no match in this model.) -/
def revisionId (d : CommitData) : Option Text :=
  d.message.bind fun m => (extractDiffNumber m).map (·.drop 1)

/-- phabricator.rs:1019-1050 `get_revision_id`; the outer `none` is an error. -/
def getRevisionId (find : Oid → Option CommitData) (c : Oid) : Option (Option Text) := (find c).map revisionId

/-- phabricator.rs:266-286: the commit that a revision is about. -/
def commitHash (r : Revision) : Option Oid :=
  match AMap.get? (AMap.ofList r.hashes) t!"gtcm" with
  | none => none
  | some h => Oid.parse h

/-- phabricator.rs:264-287 -/
def commitHashes (rs : List (Text × Revision)) : AMap Text Oid :=
  AMap.ofList (rs.filterMap fun x => (commitHash x.2).map fun o => (x.1, o))

/-- phabricator.rs:293-308 -/
def statusOf (hashes : AMap Text Oid) (c : Oid) : Option Text → SubmitStatus
  | none => .unsubmitted
  | some id =>
    match AMap.get? hashes id with
    | some remote => if remote = c then .upToDate else .needsUpdate
    | none => .needsUpdate

/-- phabricator.rs:243-317 `query_status`. -/
def queryStatus (q : Conduit) (s : Revisions) (find : Oid → Option CommitData) (commits : List Oid) :
    Option (List (Oid × CommitStatus)) :=
  match commits.mapM fun c => (getRevisionId find c).map fun id => (c, id) with
  | none => none
  | some ids =>
    match queryRevisions q s (ids.filterMap (·.2)) with
    | none => none
    | some rs => some (ids.map fun x => (x.1, ⟨statusOf (commitHashes rs) x.1 x.2, none, none⟩))

/-! ### dependencies -/

/-- How a step ends, if not well: an `eyre` error, or an exit code. -/
inductive PhabStop where
  | error
  | exit (code : Nat)
deriving DecidableEq

/-- phabricator.rs:903-915: the revisions of the parents which are among the given commits. -/
def parentRevisions (find : Oid → Option CommitData) (draft : List Oid) : List Oid → Option (List Text)
  | [] => some []
  | p :: ps =>
    if draft.contains p then
      match getRevisionId find p with
      | none => none
      | some none => parentRevisions find draft ps
      | some (some id) => (parentRevisions find draft ps).map (id :: ·)
    else parentRevisions find draft ps

/-- phabricator.rs:948-1017 `set_dependencies`. Only the exit code of the second call is looked at. -/
def setDependencies (q : Conduit) (s : Revisions) (id : Text) (parents : List Text) :
    Revisions × Except PhabStop Unit :=
  match queryRevisions q s parents with
  | none => (s, .error .error)
  | some rs =>
    match q.edit s id (rs.map (·.2.phid)) with
    | .applied => (setParents s id (rs.map (·.2.phid)), .ok ())
    | .refused => (s, .ok ())
    | .failed code => (s, .error (.exit code))
    | .notRun => (s, .error .error)

/-- phabricator.rs:892-939: the loop of `update_dependencies`, over the sorted commits. -/
def updateDependencies (q : Conduit) (find : Oid → Option CommitData) (draft : List Oid) :
    Revisions → List Oid → Revisions × Except PhabStop Unit
  | s, [] => (s, .ok ())
  | s, c :: rest =>
    match find c with
    | none => (s, .error .error)
    | some d =>
      match revisionId d with
      | none => updateDependencies q find draft s rest
      | some id =>
        match parentRevisions find draft d.parents with
        | none => (s, .error .error)
        | some parents =>
          match setDependencies q s id parents with
          | (s, .error e) => (s, .error e)
          | (s, .ok ()) => updateDependencies q find draft s rest

/-! ### creating revisions -/

/-- What the commands depend on. -/
structure PhabEnv where
  /-- What the planner reads from the repository, see `PlanEnv`. -/
  patchId : Oid → Nat
  touchedPaths : Oid → Nat
  sortedCommitSet : List Oid → List Oid
  /-- What the execution of the plan depends on; the commits which `arc` makes are among those that there are. -/
  exec : ExecEnv
  finish : List (Oid × CommitData) → FinishEnv
  disk : OnDiskEnv
  conduit : Conduit
  /-- dag.rs:358-365 `sort` of some commits, with the commits of the repository (to which dag.rs:281-317
  `sync_from_oids` has synced the graph). -/
  sort : (Oid → Option CommitData) → List Oid → List Oid

/-- The repository and Phabricator. -/
structure PhabWorld where
  repo : RepoWorld
  revisions : Revisions

/-- What `run_tests` (C71) returns: an `eyre` error, an exit code, or what became of the commits, and whether the
run was aborted. -/
inductive ArcRun where
  | error
  | exit (code : Nat)
  | results (outputs : List (Oid × TestStatus)) (aborted : Bool)

/-- Why no revisions are created. -/
inductive CreateStop where
  /-- An `eyre` error, or a panic. -/
  | error
  /-- phabricator.rs:363-366: the commits may not be rewritten; this is an `eyre` error as well. -/
  | notAllowed (e : BuildRebasePlanError)
  /-- `run_tests` returned an exit code. -/
  | arc (code : Nat)
  /-- phabricator.rs:416-430, exit code 1. -/
  | aborted
  /-- phabricator.rs:436-446, exit code 1: `arc` failed for a commit. -/
  | failedFor (c : Oid)
  /-- phabricator.rs:468-471, exit code 1. -/
  | planner (e : BuildRebasePlanError)
  /-- phabricator.rs:492-500, exit code 1: "BUG: Merge failed". -/
  | declined (info : FailedMergeInfo)
  | failed (code : Nat)
  /-- phabricator.rs:519-531, exit code 1: no link to a revision in the message of the new commit. -/
  | noRevision (c : Oid)
  /-- phabricator.rs:559-562 -/
  | dependencies (e : PhabStop)
deriving DecidableEq

/-- lib.rs:142-156 `CreateStatus`, with the commit that it is for. -/
structure CreatedRevision where
  original : Oid
  final : Oid
  name : Text
deriving DecidableEq

/-- phabricator.rs:435-460: the commit which `arc` made of a commit, if it succeeded. -/
def uploaded (c : Oid) : TestStatus → Option Oid
  | .passed _ info _ => some (info.headCommitOid.getD c)
  | .checkoutFailed | .spawnTestFailed _ | .terminatedBySignal | .alreadyInProgress | .readCacheFailed _
  | .indeterminate _ | .abort _ | .failed _ _ _ => none

/-- phabricator.rs:434-461: a commit is replaced by what `arc` made of it, on its parents. -/
def requestUploaded (env : PhabEnv) (b : RebasePlanBuilder) (x : Oid × TestStatus) :
    Except CreateStop RebasePlanBuilder :=
  match uploaded x.1 x.2 with
  | none => .error (.failedFor x.1)
  | some r =>
    match env.exec.commits x.1 with
    | none => .error .error
    | some d =>
      match b.moveSubtree x.1 d.parents with
      | .error _ => .error .error
      | .ok b =>
        match b.replaceCommit x.1 r with
        | .error _ => .error .error
        | .ok b => .ok b

/-- The environment of the planner. -/
def PhabEnv.planEnv (env : PhabEnv) (d : Dag) : PlanEnv :=
  ⟨d, env.patchId, env.touchedPaths, env.sortedCommitSet,
    fun r => ((env.exec.commits r).map (·.parents)).getD []⟩

/-- phabricator.rs:432-473: the plan, or none if there is nothing to do. -/
def createPlan (env : PhabEnv) (d : Dag) (permissions : RebasePlanPermissions)
    (outputs : List (Oid × TestStatus)) : Except CreateStop (Option RebasePlan) :=
  match outputs.foldlM (requestUploaded env) ⟨env.planEnv d, permissions, [], []⟩ with
  | .error e => .error e
  | .ok b =>
    match b.build with
    | .error _ => .error .error
    | .ok (.error e) => .error (.planner e)
    | .ok (.ok plan) => .ok plan

/-- The commits which the execution of a plan in memory writes. -/
def writtenBy (ee : ExecEnv) (head : Option Oid) (plan : RebasePlan) : List (Oid × CommitData) :=
  match ee.rebaseInMemory head plan with
  | .ok (s, _) => s.created
  | .error _ => []

/-- phabricator.rs:508-515: the new version of a commit. -/
def finalCommit (rewritten : AMap Oid MaybeZero) (c : Oid) : Oid :=
  match AMap.get? rewritten c with
  | some (.nonZero n) => n
  | some .zero => c
  | none => c

/-- phabricator.rs:508-540: what is reported for a commit. -/
def createdRevision (find : Oid → Option CommitData) (rewritten : AMap Oid MaybeZero) (c : Oid) :
    Except CreateStop CreatedRevision :=
  match getRevisionId find (finalCommit rewritten c) with
  | none => .error .error
  | some none => .error (.noRevision (finalCommit rewritten c))
  | some (some id) => .ok ⟨c, finalCommit rewritten c, t!"D" ++ id⟩

/-- phabricator.rs:506-564: after the plan was executed. `made` are the commits which were written. -/
def finishCreate (env : PhabEnv) (d : Dag) (w : PhabWorld) (made : List (Oid × CommitData))
    (rewritten : AMap Oid MaybeZero) (commits : List Oid) :
    PhabWorld × Except CreateStop (List CreatedRevision) :=
  match commits.mapM (createdRevision (env.exec.find made) rewritten) with
  | .error e => (w, .error e)
  | .ok created =>
    match updateDependencies env.conduit (env.exec.find made) (d.draftCommits ++ created.map (·.final))
        w.revisions (env.sort (env.exec.find made) (created.map (·.final))) with
    | (s, .error e) => ({ w with revisions := s }, .error (.dependencies e))
    | (s, .ok ()) => ({ w with revisions := s }, .ok created)

/-- phabricator.rs:432-564: after `arc` was run. The last result are the commits which were written. -/
def createWith (env : PhabEnv) (d : Dag) (permissions : RebasePlanPermissions) (w : PhabWorld)
    (commits : List Oid) (outputs : List (Oid × TestStatus)) :
    PhabWorld × Except CreateStop (List CreatedRevision) × List (Oid × CommitData) :=
  match createPlan env d permissions outputs with
  | .error e => (w, .error e, [])
  | .ok none => (w, .ok [], [])
  | .ok (some plan) =>
    let made := writtenBy env.exec w.repo.git.headInfo.oid plan
    match executeRebasePlan env.exec env.finish env.disk ⟨true, false, false⟩ plan w.repo with
    | (repo, .error _) => ({ w with repo }, .error .error, made)
    | (repo, .ok (.declinedToMerge info)) => ({ w with repo }, .error (.declined info), made)
    | (repo, .ok (.failed code)) => ({ w with repo }, .error (.failed code), made)
    | (repo, .ok (.succeeded rewritten)) =>
      let x := finishCreate env d { w with repo } made (rewritten.getD []) commits
      (x.1, x.2, made)

/-- phabricator.rs:320-565 `create`. `arc` says what `run_tests` does with `arc diff --create`. -/
def create (env : PhabEnv) (d : Dag) (txEnv : Option Text) (w : PhabWorld) (commits : List Oid)
    (arc : PhabWorld → List Oid → PhabWorld × ArcRun) :
    PhabWorld × Except CreateStop (List CreatedRevision) × List (Oid × CommitData) :=
  let commits := env.sort env.exec.commits commits
  if commits.any fun c => (env.exec.commits c).isNone then (w, .error .error, [])
  else
    let w := { w with repo :=
      { w.repo with db := (w.repo.db.makeTransactionId txEnv t!"phabricator create").2 } }
    match verifyRewriteSet d false false commits with
    | .error e => (w, .error (.notAllowed e), [])
    | .ok permissions =>
      match arc w commits with
      | (w, .error) => (w, .error .error, [])
      | (w, .exit code) => (w, .error (.arc code), [])
      | (w, .results _ true) => (w, .error .aborted, [])
      | (w, .results outputs false) => createWith env d permissions w commits outputs

/-! ### updating revisions -/

/-- Why the revisions are not updated. -/
inductive UpdateStop where
  | error
  | notAllowed (e : BuildRebasePlanError)
  | arc (code : Nat)
  /-- phabricator.rs:657-671, exit code 1. -/
  | aborted
  /-- phabricator.rs:686-701, exit code 1: `arc` failed for these commits. -/
  | failedFor (commits : List Oid)
  | dependencies (e : PhabStop)
deriving DecidableEq

/-- phabricator.rs:568-711 `update`. `find` are the commits of the repository (`create` may have written some), `arc`
says what `run_tests` does with `arc diff`. -/
def update (env : PhabEnv) (find : Oid → Option CommitData) (d : Dag) (txEnv : Option Text) (w : PhabWorld)
    (commits : List Oid) (arc : PhabWorld → List Oid → PhabWorld × ArcRun) :
    PhabWorld × Except UpdateStop Unit :=
  let commits := env.sort find commits
  if commits.any fun c => (find c).isNone then (w, .error .error)
  else
    let w := { w with repo :=
      { w.repo with db := (w.repo.db.makeTransactionId txEnv t!"phabricator update").2 } }
    match verifyRewriteSet d false false commits with
    | .error e => (w, .error (.notAllowed e))
    | .ok _ =>
      match arc w commits with
      | (w, .error) => (w, .error .error)
      | (w, .exit code) => (w, .error (.arc code))
      | (w, .results _ true) => (w, .error .aborted)
      | (w, .results outputs false) =>
        let failures := outputs.filter fun x => (uploaded x.1 x.2).isNone
        if failures.isEmpty then
          match updateDependencies env.conduit find d.draftCommits w.revisions
              (env.sort find (outputs.map (·.1))) with
          | (s, .error e) => ({ w with revisions := s }, .error (.dependencies e))
          | (s, .ok ()) => ({ w with revisions := s }, .ok ())
        else (w, .error (.failedFor (failures.map (·.1))))

/-! ### the command -/

/-- How the command ends. -/
inductive PhabOutcome where
  /-- The statuses cannot be found out. -/
  | error
  | notCreated (e : CreateStop)
  | notUpdated (e : UpdateStop)
  /-- lib.rs:416-515: the names of the commits which were submitted. The others have no names. -/
  | done (submitted : List Text)
deriving DecidableEq

/-- lib.rs:311-371: the commits with a given status. -/
def phabWithStatus (status : SubmitStatus) (statuses : List (Oid × CommitStatus)) : List Oid :=
  (statuses.filter fun x => x.2.status = status).map (·.1)

/-- lib.rs:373-398: the commits without revisions. -/
def submitCreatePhab (env : PhabEnv) (d : Dag) (txEnv : Option Text) (createNew dryRun : Bool) (w : PhabWorld)
    (commits : List Oid) (arc : PhabWorld → List Oid → PhabWorld × ArcRun) :
    PhabWorld × Except CreateStop (List CreatedRevision) × List (Oid × CommitData) :=
  if createNew && !dryRun then create env d txEnv w commits arc else (w, .ok [], [])

/-- lib.rs:214-518 `submit`, with this forge. -/
def phabSubmit (env : PhabEnv) (d : Dag) (txEnv : Option Text) (createNew dryRun : Bool) (w : PhabWorld)
    (commits : List Oid) (arcCreate arcUpdate : PhabWorld → List Oid → PhabWorld × ArcRun) :
    PhabWorld × PhabOutcome :=
  match queryStatus env.conduit w.revisions env.exec.commits commits with
  | none => (w, .error)
  | some statuses =>
    match submitCreatePhab env d txEnv createNew dryRun w (phabWithStatus .unsubmitted statuses) arcCreate with
    | (w, .error e, _) => (w, .notCreated e)
    | (w, .ok created, made) =>
      let names := sortedSet (created.map (·.name))
      if dryRun then (w, .done names)
      else
        match update env (env.exec.find made) d txEnv w (phabWithStatus .needsUpdate statuses) arcUpdate with
        | (w, .error e) => (w, .notUpdated e)
        | (w, .ok ()) => (w, .done names)

end Verif.Phabricator
