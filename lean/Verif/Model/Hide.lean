import Verif.Model.FinishRebase
import Verif.Model.Dag

/-!
Hiding and unhiding commits, and repairing the event log. Model of git-branchless/src/commands/hide.rs
and repair.rs.
-/

namespace Verif

/-- repo_ext.rs:117-127 `get_references_snapshot`; `none` is the error that there is no main branch. -/
def GitState.referencesSnapshot (g : GitState) (mainBranch : Text) : Option Replayer.RefsSnapshot :=
  match g.refs.get? mainBranch with
  | none => none
  | some main => some
    { headOid := g.headInfo.oid
      mainBranchOid := main
      branchOidToNames := (branchOids g.refs).map fun o => (o, namesAt g.refs o) }

/-- hide.rs:36-47 and 199-210: the event log and the references are read, and the graph is opened.
`graph` is the stored graph after it was synchronized (dag.rs:181-197 `open_and_sync`) and after the
commits named by the arguments were added to it (resolve.rs:96-97). -/
def openRepoDag (graph : CommitGraph Oid) (mainBranch : Text) (w : RepoWorld) :
    Option (Replayer × Dag) :=
  match w.git.referencesSnapshot mainBranch, w.db.getEvents with
  | some refs, some es =>
    let r := Replayer.fromEvents mainBranch es
    some (r, .openWithoutSyncing graph r r.makeDefaultCursor refs)
  | _, _ => none

/-- hide.rs:60-66: the commits to hide, given the sets for which the arguments stand. -/
def hideSelection (d : Dag) (recursive : Bool) (sets : List (List Oid)) : List Oid :=
  let commits := sets.flatten
  let commits := if recursive then d.filterVisibleCommits (d.graph.descendants commits) else commits
  d.graph.sort commits

/-- hide.rs:223-230: the commits to unhide. -/
def unhideSelection (d : Dag) (recursive : Bool) (sets : List (List Oid)) : List Oid :=
  let commits := sets.flatten
  let commits := if recursive then CommitGraph.inter (d.graph.descendants commits) d.obsoleteCommits
    else commits
  d.graph.sort commits

/-- How `hide` and `unhide` end. -/
inductive HideOutcome where
  /-- An `eyre` error. -/
  | error
  /-- The commits which are reported, each with the flag that it is said that there was no effect; and
  the branches which are reported, by their full names (before sorting). -/
  | done (commits : List (Oid × Bool)) (branches : List Text)
deriving DecidableEq

/-- hide.rs:104 and 113-117: `HEAD` is detached if its commit is hidden. -/
def hideHead (git : GitState) (commits : List Oid) : GitState :=
  match git.headInfo.oid with
  | some o => if commits.contains o then git.detachHead git.headInfo else git
  | none => git

/-- hide.rs:101-130: deleting the branches of hidden commits; the flag is whether there was no
error. -/
def hideBranches (env : FinishEnv) (w : RepoWorld) (commits : List Oid) : RepoWorld × Bool :=
  let abandoned : AMap Oid MaybeZero := commits.map fun c => (c, .zero)
  let git := hideHead w.git commits
  let moved := moveBranches env.move git.refs abandoned
  ({ w with
      git := { git with refs := moved.refs }
      db := match moved.report with
        | some moves => runReferenceTransactionHook env w.db moves
        | none => w.db },
    moved.ok)

/-- hide.rs:22-183 `hide`; `txEnv` is the value of the environment variable with a transaction id, and
`sets` is the result of `resolve_commits`. -/
def hide (env : FinishEnv) (graph : CommitGraph Oid) (txEnv : Option Text) (w : RepoWorld)
    (sets : List (List Oid)) (noDeleteBranches recursive : Bool) : RepoWorld × HideOutcome :=
  match openRepoDag graph env.move.mainBranch w with
  | none => (w, .error)
  | some (r, d) =>
    let commits := hideSelection d recursive sets
    if commits.any fun c => !env.move.isCommit c then (w, .error)
    else
      let (tx, db) := w.db.makeTransactionId txEnv t!"hide"
      let hidden := { w with db := db.addEvents (commits.map fun c => .obsolete env.now tx c) }
      let reported := commits.map fun c => (c, decide (r.activityStatus r.makeDefaultCursor c = .obsolete))
      let branches := commits.flatMap (namesAt w.git.refs)
      if noDeleteBranches then (hidden, .done reported branches)
      else
        match hideBranches { env with tx := tx.toText } hidden commits with
        | (w, true) => (w, .done reported branches)
        | (w, false) => (w, .error)

/-- hide.rs:185-272 `unhide`. -/
def unhide (env : FinishEnv) (graph : CommitGraph Oid) (txEnv : Option Text) (w : RepoWorld)
    (sets : List (List Oid)) (recursive : Bool) : RepoWorld × HideOutcome :=
  match openRepoDag graph env.move.mainBranch w with
  | none => (w, .error)
  | some (r, d) =>
    let commits := unhideSelection d recursive sets
    if commits.any fun c => !env.move.isCommit c then (w, .error)
    else
      let (tx, db) := w.db.makeTransactionId txEnv t!"unhide"
      ({ w with db := db.addEvents (commits.map fun c => .unobsolete env.now tx c) },
        .done (commits.map fun c => (c, decide (r.activityStatus r.makeDefaultCursor c = .active))) [])

/-! ### repair -/

/-- What `repair` finds in the repository. -/
structure RepairEnv where
  mainBranch : Text
  /-- `find_commit` finds a commit. (If it fails otherwise, for example because the object is not a
  commit or is damaged, `repair` fails; this is not modelled.) -/
  isCommit : Oid → Bool
  now : Timestamp
  /-- The order in which a `HashSet` with these elements is iterated. -/
  shuffleCommits : List Oid → List Oid
  shuffleBranches : List (Oid × Text) → List (Oid × Text)

/-- repair.rs:24-36. -/
def brokenCommits (env : RepairEnv) (r : Replayer) : List Oid :=
  (r.cursorOids r.makeDefaultCursor).filter fun o => !env.isCommit o

/-- repair.rs:42-50: the recorded branches, with their recorded positions. -/
def recordedBranches (m : AMap Oid (List Text)) : List (Oid × Text) :=
  m.flatMap fun e => e.2.map fun name => (e.1, name)

/-- repair.rs:51-56: those of them which are no references any more. -/
def brokenBranches (refs : Refs) (snapshot : Replayer.RefsSnapshot) : List (Oid × Text) :=
  (recordedBranches snapshot.branchOidToNames).filter fun b => (refs.get? b.2).isNone

/-- How `repair` ends. -/
inductive RepairOutcome where
  | error
  | panic
  /-- The commits and branches which are reported as repaired. -/
  | done (commits : List Oid) (branches : List (Oid × Text))
deriving DecidableEq

/-- repair.rs:17-130 `repair`. -/
def repair (env : RepairEnv) (txEnv : Option Text) (w : RepoWorld) (dryRun : Bool) :
    RepoWorld × RepairOutcome :=
  match w.git.refs.get? env.mainBranch, w.db.getEvents with
  | some main, some es =>
    let r := Replayer.fromEvents env.mainBranch es
    match r.referencesSnapshot ⟨env.mainBranch, main⟩ r.makeDefaultCursor with
    | .error _ => (w, .panic)
    | .ok snapshot =>
      let commits := brokenCommits env r
      let branches := brokenBranches w.git.refs snapshot
      let (tx, db) := w.db.makeTransactionId txEnv t!"repair"
      let events := (env.shuffleCommits commits).map (fun c => .obsolete env.now tx c) ++
        (env.shuffleBranches branches).map fun b =>
          .refUpdate env.now tx b.2 (.nonZero b.1) .zero none
      ({ w with db := if dryRun then db else db.addEvents events }, .done commits branches)
  | _, _ => (w, .error)

end Verif
