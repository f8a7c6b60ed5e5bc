import Verif.Model.Snapshot
import Verif.Model.EventLog

/-!
The commands `git branchless snapshot create` and `git branchless snapshot restore`:
git-branchless/src/commands/snapshot.rs, with `create_snapshot` and `restore_snapshot` of
git-branchless-lib/src/core/check_out.rs, on the files of the working copy, the index, `HEAD` and the references.

Of git are modelled, besides what is in Model/Snapshot: `git reset --hard`, `git reset`, `git checkout` of a
commit, `git update-ref` and `git symbolic-ref`. Events which the hooks of git add to the event log are not
modelled here, and submodules are not.
-/

namespace Verif

/-- What the commands work on. -/
structure SnapWorld where
  repo : SnapRepo
  index : GitIndex
  /-- The files of the working copy, with mode and contents as git would store them. -/
  files : AMap TreePath File
  head : SnapHead
  /-- `MERGE_HEAD`: the commits which are being merged. -/
  merging : List Oid
  db : Db

/-- git/repo.rs:691-699 `get_head_info`: the commit. -/
def SnapWorld.headOid (w : SnapWorld) : Option Oid :=
  match w.head.head with
  | .inl name => AMap.get? w.head.refs name
  | .inr o => some o

/-- git/repo.rs:691-699 `get_head_info`: the branch. -/
def SnapWorld.headRef (w : SnapWorld) : Option Text :=
  match w.head.head with
  | .inl name => some name
  | .inr _ => none

/-- What the commands depend on. -/
structure SnapshotEnv where
  now : Timestamp
  /-- The variable `BRANCHLESS_TRANSACTION_ID`. -/
  txVar : Option Text
  /-- What `git status` reports when a snapshot is created. -/
  status : List StatusEntry
  /-- The path to which a symbolic link leads. -/
  linkTarget : TreePath → Oid → TreePath
  /-- git can be run with these arguments, and nothing else than what is modelled goes wrong. -/
  works : List Text → Bool
  /-- The order in which a set of paths is visited. -/
  order : List TreePath → List TreePath

/-- How a command ends. -/
inductive SnapshotEnd where
  /-- An `eyre` error. -/
  | error
  /-- The exit code of git. -/
  | gitFailed
  /-- Exit code 1. -/
  | notSnapshot
  /-- Exit code 0; the id is printed. -/
  | created (o : Oid)
  /-- Exit code 0. -/
  | restored
deriving DecidableEq

/-- The files as they are read by the program. -/
def workOf (env : SnapshotEnv) (files : AMap TreePath File) : WorkingCopy :=
  files.map fun e =>
    (e.1, if e.2.1 = 0o120000 then .link e.2.2 (env.linkTarget e.1 e.2.2) else .file e.2.2)

/-- A file which has to be removed in order to write another one: one of them is in a directory with the name of the
other one. -/
def inTheWay (p q : TreePath) : Bool := strictlyBelow p q || strictlyBelow q p

/-- The given paths get the files of a tree; what is in the way is removed. -/
def putFiles (files : AMap TreePath File) (ps : List TreePath) (t : Tree) : AMap TreePath File :=
  (ps.dedup.filterMap fun p => (getFile t p).map fun f => (p, f)) ++
    files.filter fun e => e.1 ∉ ps && !(ps.any fun p => (getFile t p).isSome && inTheWay p e.1)

/-- The paths of a tree and of the index. -/
def pathsOf (t : Tree) (index : GitIndex) : List TreePath :=
  ((treeFilePaths t).filter fun p => (getFile t p).isSome) ++ index.map (·.1.1)

/-- The commit of `HEAD`. -/
def SnapWorld.headCommit (w : SnapWorld) : Option SnapCommit :=
  w.headOid.bind fun o => (w.repo.find o).toOption

/-- `git reset --hard HEAD` (an external program): the index and all tracked paths are as in `HEAD`; "any untracked
files or directories in the way of writing any tracked files are simply deleted" (git-reset(1)); a merge is
forgotten. It fails if there is no commit. -/
def gitResetHard (w : SnapWorld) : Option SnapWorld :=
  w.headCommit.map fun c =>
    { w with
      index := indexOfTree c.tree
      files := putFiles w.files (pathsOf c.tree w.index) c.tree
      merging := [] }

/-- `git checkout` of a commit (an external program) overwrites no untracked file: a file which is not in the index,
and differs from the one to be written at its path or is in the way. -/
def untrackedBlocks (w : SnapWorld) (t : Tree) : Bool :=
  (treeFilePaths t).any fun p =>
    (getFile t p).isSome && w.files.any fun e =>
      (AMap.get? w.index (e.1, .stage0)).isNone &&
        ((e.1 = p && getFile t p ≠ AMap.get? w.files p) || inTheWay p e.1)

/-- `git checkout <oid>` (an external program) when nothing is changed. (Modelled for this case only; that the
argument is not taken for the name of a branch is assumed.) -/
def gitCheckoutDetached (w : SnapWorld) (c : SnapCommit) : Option SnapWorld :=
  if untrackedBlocks w c.tree then none
  else
    some { w with
      index := indexOfTree c.tree
      files := putFiles w.files (pathsOf c.tree w.index) c.tree
      head := { w.head with head := .inr (w.repo.commitId c) } }

/-- `git reset <oid>` (an external program) when `HEAD` is detached. -/
def gitResetMixed (w : SnapWorld) (c : SnapCommit) : SnapWorld :=
  { w with
    index := indexOfTree c.tree
    head := { w.head with head := .inr (w.repo.commitId c) }
    merging := [] }

/-- git is run, if it can be. -/
def SnapshotEnv.run {α : Type} (env : SnapshotEnv) (args : List Text) (result : Option α) : Option α :=
  if env.works args then result else none

/-- snapshot.rs:16-55 `create`, with check_out.rs:207-231 `create_snapshot`. A failure of `git reset` is an error,
since `run_silent` is told to treat it so (`GitRunOpts::default`); the message at snapshot.rs:45-53 is never
printed. The id is printed before. -/
def snapshotCreate (env : SnapshotEnv) (w : SnapWorld) : SnapshotEnd × SnapWorld :=
  let (tx, db) := w.db.makeTransactionId env.txVar t!"snapshot create"
  let w := { w with db }
  match createSnapshot w.repo w.index w.headOid w.headRef (workOf env w.files) env.status with
  | .error () => (.error, w)
  | .ok (repo, s) =>
    let e : Event :=
      .snapshot env.now tx (MaybeZero.ofOption w.headOid) (repo.commitId s.base) w.headRef
    let w := { w with repo, db := w.db.addEvents [e] }
    match env.run [t!"reset", t!"--hard", t!"HEAD", t!"--"] (gitResetHard w) with
    | none => (.error, w)
    | some w => (.created (repo.commitId s.base), w)

/-- check_out.rs:332-355: the branch of the snapshot. -/
def restoreRef (env : SnapshotEnv) (w : SnapWorld) (s : WcSnapshot) : SnapshotEnd × SnapWorld :=
  match s.headRef with
  | none => (.restored, w)
  | some name =>
    let oid := MaybeZero.ofOption (s.head.map w.repo.commitId)
    let refs := match s.head with
      | some c => AMap.insert w.head.refs name (w.repo.commitId c)
      | none => AMap.erase w.head.refs name
    match env.run [t!"update-ref", name, oid.toText] (some { w with head := { w.head with refs } }) with
    | none => (.gitFailed, w)
    | some w =>
      match env.run [t!"symbolic-ref", t!"HEAD", name] (some { w with head := { w.head with head := .inl name } }) with
      | none => (.gitFailed, w)
      | some w => (.restored, w)

/-- check_out.rs:290-328: the index, then the branch. -/
def restoreStages (env : SnapshotEnv) (w : SnapWorld) (s : WcSnapshot) : SnapshotEnd × SnapWorld :=
  let index := (restoreCommands w.repo env.order s).foldl applyIndexCommand w.index
  match env.run [t!"update-index", t!"-z", t!"--index-info"] (some { w with index }) with
  | none => (.error, w)
  | some w => restoreRef env w s

/-- check_out.rs:241-355 `restore_snapshot`. -/
def restoreWork (env : SnapshotEnv) (w : SnapWorld) (s : WcSnapshot) : SnapshotEnd × SnapWorld :=
  match env.run [t!"reset", t!"--hard", t!"HEAD"] (gitResetHard w) with
  | none => (.gitFailed, w)
  | some w =>
    match env.run [t!"checkout", (w.repo.commitId s.unstaged).toText] (gitCheckoutDetached w s.unstaged) with
    | none => (.gitFailed, w)
    | some w =>
      match s.head with
      | none => restoreStages env w s
      | some c =>
        match env.run [t!"reset", (w.repo.commitId c).toText] (some (gitResetMixed w c)) with
        | none => (.gitFailed, w)
        | some w => restoreStages env w s

/-- snapshot.rs:57-80 `restore`. -/
def snapshotRestore (env : SnapshotEnv) (w : SnapWorld) (o : Oid) : SnapshotEnd × SnapWorld :=
  let (_, db) := w.db.makeTransactionId env.txVar t!"snapshot restore"
  let w := { w with db }
  match w.repo.find o with
  | .error () => (.error, w)
  | .ok base =>
    match tryFromBaseCommit w.repo base with
    | .error () => (.error, w)
    | .ok none => (.notSnapshot, w)
    | .ok (some s) => restoreWork env w s

end Verif
