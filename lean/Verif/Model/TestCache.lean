import Verif.Model.TestRun
import Verif.Model.Revset

/-!
Model of the cached results of `git test`: `make_test_files`, `test_commit` and `subcommand_clean` in
git-branchless-test/src/lib.rs, git-branchless-lib/src/git/test.rs, and how the revset functions
`tests.passed` and so on read them.

The cache is shared by all the threads of all the processes. What happens to it is a sequence of
operations, each of which is done under the lock of a directory (lib.rs:2382-2397), or removes
directories (`clean`).

Simplifications: a lock and the files which it protects are in one directory, and they are made
together; directories have numbers, since one which was removed may still be in use while there is a
new one of the same name. What is written is read again as it was (serde_json). The commands "", "."
and "..", for which the directory is not one of its own, and those which are too long for the name of a directory,
are left out. `--no-cache` does not use the cache (lib.rs:2334-2367). Errors of the file system are
left out, apart from a result which cannot be read.
-/

namespace Verif.TestCache

open Verif.TestRun

/-- git/test.rs:45-47 `make_test_command_slug`. -/
def slug (command : Text) : Text :=
  command.flatMap fun c => if c = '/' || c = ' ' || c = '\n' then ['_', '_'] else [c]

/-- git/test.rs:99-108 `SerializedTestResult`. The command is always a `TestCommand::String`
(lib.rs:439), whose text it is. -/
structure SerializedTestResult where
  command : Text
  exitCode : Int
  headCommitOid : Option Oid
  snapshotTreeOid : Option Oid
  interactive : Bool
deriving DecidableEq, Repr

/-- What is in the file "result". -/
inductive ResultFile where
  /-- Nothing, or there is none. -/
  | empty
  | result (r : SerializedTestResult)
  /-- Something else; the error which reading it gives. -/
  | unreadable (error : Text)
deriving DecidableEq, Repr

/-- What comes of running the command (lib.rs:2695-2716). -/
inductive Outcome where
  /-- The command cannot be started. -/
  | spawnFailed (error : Text)
  /-- It is ended by a signal. -/
  | signal
  /-- It ends with this exit code. If this is 0, `fixInfo` is the commit which is then checked out,
  and the tree of the working copy, if there are no staged changes or conflicts (lib.rs:2718-2761). -/
  | exited (code : Int) (fixInfo : FixInfo)
deriving DecidableEq, Repr

/-- lib.rs:2694-2818, `test_commit`: the status, and what is written to the result. -/
def testCommit (command : Text) (interactive : Bool) :
    Outcome → TestStatus × Option SerializedTestResult
  | .spawnFailed e => (.spawnTestFailed e, none)
  | .signal => (.terminatedBySignal, none)
  | .exited code fixInfo =>
    let status :=
      if code = testSuccess then TestStatus.passed false fixInfo interactive
      else if code = testIndeterminate then .indeterminate code
      else if code = testAbort then .abort code
      else .failed false code interactive
    let fixInfo := match status with
      | .passed _ fixInfo _ => some fixInfo
      | _ => none
    (status, some
      { command
        exitCode := code
        headCommitOid := fixInfo.bind FixInfo.headCommitOid
        snapshotTreeOid := fixInfo.bind FixInfo.snapshotTreeOid
        interactive })

/-- lib.rs:2405-2453, in `make_test_files`: the status of a result which is read. -/
def readStatus (r : SerializedTestResult) : TestStatus :=
  if r.exitCode = 0 then .passed true ⟨r.headCommitOid, r.snapshotTreeOid⟩ r.interactive
  else if r.exitCode = testIndeterminate then .indeterminate r.exitCode
  else if r.exitCode = testAbort then .abort r.exitCode
  else .failed true r.exitCode r.interactive

/-- A test which is being run, in the directory of this number. -/
structure Running where
  tree : Oid
  command : Text
  interactive : Bool
  dir : Nat
deriving DecidableEq, Repr

/-- lib.rs:2369-2373 and git/test.rs:122-124: the name of the directory of a test. -/
def Running.key (r : Running) : Oid × Text := (r.tree, slug r.command)

/-- The directories with their numbers and results, and the tests which hold a lock. -/
structure Cache where
  dirs : AMap (Oid × Text) (Nat × ResultFile)
  running : AMap Nat Running
  nextDir : Nat

def Cache.empty : Cache := ⟨[], [], 0⟩

/-- What is done with the cache. -/
inductive Op where
  /-- `make_test_files` (lib.rs:2329-2483), called by the thread `id` (of any process). -/
  | begin (id : Nat) (tree : Oid) (command : Text) (interactive : Bool)
  /-- The end of `test_commit`, where the lock is dropped. -/
  | finish (id : Nat) (outcome : Outcome)
  /-- The lock is dropped without a result: the commit cannot be checked out (lib.rs:2227-2248), or
  the process ends, or the caller is `subcommand_show` (lib.rs:2858-2867). -/
  | abandon (id : Nat)
  /-- The process ends while it writes the result. -/
  | garble (id : Nat) (error : Text)
  /-- `subcommand_clean` (lib.rs:2928-2950) for a commit with this tree. -/
  | clean (tree : Oid)

/-- What an operation does, as seen from outside. -/
inductive Event where
  | nothing
  /-- The test is started. -/
  | started (tree : Oid) (command : Text)
  /-- No test is run, and this status is reported. -/
  | reported (tree : Oid) (command : Text) (status : TestStatus)
  /-- The test ends with this outcome, and this status is reported. -/
  | tested (tree : Oid) (command : Text) (interactive : Bool) (outcome : Outcome) (status : TestStatus)
  | abandoned (tree : Oid) (command : Text)
  | garbled (tree : Oid) (command : Text) (error : Text)
  | cleaned (tree : Oid)
deriving DecidableEq

/-- Some test holds the lock of the directory. -/
def Cache.locked (c : Cache) (key : Oid × Text) (dir : Nat) : Bool :=
  c.running.any fun e => e.2.key = key && e.2.dir = dir

/-- Write to the result of a test, which has no effect if its directory was removed. -/
def Cache.write (c : Cache) (r : Running) (file : ResultFile) : Cache :=
  match c.dirs.get? r.key with
  | some (dir, _) => if dir = r.dir then { c with dirs := c.dirs.insert r.key (dir, file) } else c
  | none => c

/-- lib.rs:2369-2483: `make_test_files` with the cache. -/
def Cache.begin (c : Cache) (id : Nat) (tree : Oid) (command : Text) (interactive : Bool) : Cache × Event :=
  let key := (tree, slug command)
  match c.dirs.get? key with
  | none =>
    ({ dirs := c.dirs.insert key (c.nextDir, .empty)
       running := c.running.insert id ⟨tree, command, interactive, c.nextDir⟩
       nextDir := c.nextDir + 1 }, .started tree command)
  | some (dir, file) =>
    if c.locked key dir then (c, .reported tree command .alreadyInProgress)
    else
      match file with
      | .result r => (c, .reported tree command (readStatus r))
      | .unreadable e => (c, .reported tree command (.readCacheFailed e))
      | .empty =>
        ({ c with running := c.running.insert id ⟨tree, command, interactive, dir⟩ }, .started tree command)

/-- One operation. A thread runs one test at a time. -/
def Cache.step (c : Cache) : Op → Cache × Event
  | .begin id tree command interactive =>
    match c.running.get? id with
    | some _ => (c, .nothing)
    | none => c.begin id tree command interactive
  | .finish id outcome =>
    match c.running.get? id with
    | none => (c, .nothing)
    | some r =>
      let (status, result) := testCommit r.command r.interactive outcome
      let c' := { c with running := c.running.erase id }
      (match result with
        | none => c'
        | some result => c'.write r (.result result),
       .tested r.tree r.command r.interactive outcome status)
  | .abandon id =>
    match c.running.get? id with
    | none => (c, .nothing)
    | some r => ({ c with running := c.running.erase id }, .abandoned r.tree r.command)
  | .garble id error =>
    match c.running.get? id with
    | none => (c, .nothing)
    | some r =>
      (({ c with running := c.running.erase id } : Cache).write r (.unreadable error),
        .garbled r.tree r.command error)
  | .clean tree => ({ c with dirs := c.dirs.filter fun e => e.1.1 ≠ tree }, .cleaned tree)

/-- git-branchless-revset/src/builtins.rs:563-576 `read_all_test_results`: `none` if there is no
directory for the tree, or one of the results cannot be read. -/
def Cache.readAllTestResults (c : Cache) (tree : Oid) : Option (List TestResult) :=
  match c.dirs.filter fun e => e.1.1 = tree with
  | [] => none
  | dirs => dirs.mapM fun e =>
    match e.2.2 with
    | .result r => some ⟨r.command, r.exitCode, r.snapshotTreeOid.map Oid.val⟩
    | .empty | .unreadable _ => none

end Verif.TestCache
