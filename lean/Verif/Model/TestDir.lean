import Verif.Model.TestOptions

/-!
# The directories in which tests are run (git-branchless-test/src/lib.rs)

Several processes of `git test` may be running, each with several workers. Every step of a worker which others can see
is a step here, with what the operating system and `git` do with it.

Simplified: file locks (crate fslock) are taken and released at once, and released when their holder is gone; when a
process is killed its command is, too; nobody but the processes of `git test` works in the directories; a directory is a
map from paths to contents, a path in a commit is never inside of another one which is a file.
-/

namespace Verif.TestDir

open Verif.TestRun

/-- What is in a directory: the files, and what is in its index. -/
structure Dir where
  files : Text → Option Text
  index : Text → Option Text

/-- `git reset --hard` and `git checkout --force` to a commit with this tree: the files of the commit are written, those
which are in the index but not in the commit are removed, and the others stay. -/
def Dir.reset (tree : Text → Option Text) (dir : Dir) : Dir where
  files p :=
    match tree p with
    | some content => some content
    | none => if (dir.index p).isSome then none else dir.files p
  index := tree

/-- The directories: the working copy, and the worktree of each worker id (lib.rs:2558). -/
inductive DirId where
  | workingCopy
  | worktree (id : Nat)
deriving DecidableEq

/-- A worker of a process. -/
structure Owner where
  process : Nat
  worker : Nat
deriving DecidableEq

/-- lib.rs:2183-2250 `run_test`, for a commit whose result is not cached: how far a worker is, or how it ended
(`PrepareWorkingDirectoryError`, lib.rs:2489-2494, all of them `TestStatus::CheckoutFailed`). -/
inductive Phase where
  | idle
  | begun (c : Oid)
  | locked (c : Oid)
  | prepared (c : Oid)
  | running (c : Oid)
  | ran (c : Oid)
  | lockFailed (c : Oid)
  | noWorkingCopy (c : Oid)
  | checkoutFailed (c : Oid)
  | createWorktreeFailed (c : Oid)
  /-- The worker has ended with an error, or was killed. -/
  | gone
deriving DecidableEq

/-- Whether the worker is ready for the next job. -/
def Phase.free : Phase → Bool
  | .idle | .ran _ | .lockFailed _ | .noWorkingCopy _ | .checkoutFailed _ | .createWorktreeFailed _ => true
  | _ => false

/-- Whether the worker has a lock. -/
def Phase.holds : Phase → Bool
  | .locked _ | .prepared _ | .running _ => true
  | _ => false

/-- What is fixed: the trees of the commits, and the options of each process. -/
structure Env where
  tree : Oid → Text → Option Text
  strategy : Nat → ExecutionStrategy
  jobs : Nat → Nat

/-- lib.rs:2509-2515, 2527-2530, 2554-2559: the directory of a worker. Its lock file has the same name up to the
extension. -/
def dirOf (strategy : ExecutionStrategy) (worker : Nat) : DirId :=
  match strategy with
  | .workingCopy => .workingCopy
  | .worktree => .worktree worker

/-- The directory which a worker works in. -/
def Env.dir (env : Env) (o : Owner) : DirId := dirOf (env.strategy o.process) o.worker

/-- The directories, who holds which lock, and what each worker does. -/
structure World where
  dirs : DirId → Option Dir
  lock : DirId → Option Owner
  phase : Owner → Phase

/-- Before: no locks, no workers. -/
def World.init (dirs : DirId → Option Dir) : World := ⟨dirs, fun _ => none, fun _ => .idle⟩

def World.setDir (w : World) (id : DirId) (dir : Option Dir) : World :=
  { w with dirs := fun i => if i = id then dir else w.dirs i }

def World.setPhase (w : World) (o : Owner) (phase : Phase) : World :=
  { w with phase := fun x => if x = o then phase else w.phase x }

def World.setLock (w : World) (id : DirId) (owner : Option Owner) : World :=
  { w with lock := fun i => if i = id then owner else w.lock i }

/-- The steps. -/
inductive Label where
  /-- A worker gets a job (lib.rs:1392-1424). -/
  | begin (o : Owner) (c : Oid)
  /-- lib.rs:2516-2524. -/
  | tryLock (o : Owner)
  /-- lib.rs:2527-2530 (`NoWorkingCopy`). -/
  | noWorkingCopy (o : Owner)
  /-- lib.rs:2569-2585 `git worktree add`, when it succeeds with this directory, or fails and leaves this. -/
  | addWorktree (o : Owner) (ok : Bool) (dir : Option Dir)
  /-- lib.rs:2532-2551 `git reset --hard`, or 2587-2607 `git checkout --force`, when it succeeds. -/
  | checkOut (o : Owner)
  /-- The same, when it fails and leaves this directory. -/
  | checkOutFails (o : Owner) (dir : Option Dir)
  /-- lib.rs:2616-2740 `test_commit` starts the command. -/
  | start (o : Owner)
  /-- The command does something in its directory, whatever that is. -/
  | command (o : Owner) (dir : Option Dir)
  /-- lib.rs:2274-2277: the lock is given back. -/
  | finish (o : Owner)
  /-- An error (`?`) ends the worker, its lock is dropped. -/
  | error (o : Owner)
  /-- A process is killed. -/
  | kill (process : Nat)

/-- The worker which does a step. -/
def Label.owner : Label → Option Owner
  | .begin o _ | .tryLock o | .noWorkingCopy o | .addWorktree o _ _ | .checkOut o | .checkOutFails o _ | .start o
  | .command o _ | .finish o | .error o => some o
  | .kill _ => none

/-- lib.rs:2183-2306 `run_test` and 2496-2614 `prepare_working_directory`, step by step. -/
def step (env : Env) (w : World) : Label → Option World
  | .begin o c =>
    if (w.phase o).free ∧ 1 ≤ o.worker ∧ o.worker ≤ env.jobs o.process then some (w.setPhase o (.begun c)) else none
  | .tryLock o =>
    match w.phase o with
    | .begun c =>
      match w.lock (env.dir o) with
      | none => some ((w.setLock (env.dir o) (some o)).setPhase o (.locked c))
      | some _ => some (w.setPhase o (.lockFailed c))
    | _ => none
  | .noWorkingCopy o =>
    match w.phase o, env.strategy o.process, w.dirs (env.dir o) with
    | .locked c, .workingCopy, none => some ((w.setLock (env.dir o) none).setPhase o (.noWorkingCopy c))
    | _, _, _ => none
  | .addWorktree o ok dir =>
    match w.phase o, env.strategy o.process, w.dirs (env.dir o) with
    | .locked c, .worktree, none =>
      if ok then if dir.isSome then some (w.setDir (env.dir o) dir) else none
      else some (((w.setDir (env.dir o) dir).setLock (env.dir o) none).setPhase o (.createWorktreeFailed c))
    | _, _, _ => none
  | .checkOut o =>
    match w.phase o, w.dirs (env.dir o) with
    | .locked c, some dir => some ((w.setDir (env.dir o) (some (dir.reset (env.tree c)))).setPhase o (.prepared c))
    | _, _ => none
  | .checkOutFails o dir =>
    match w.phase o, w.dirs (env.dir o) with
    | .locked c, some _ =>
      some (((w.setDir (env.dir o) dir).setLock (env.dir o) none).setPhase o (.checkoutFailed c))
    | _, _ => none
  | .start o =>
    match w.phase o with
    | .prepared c => some (w.setPhase o (.running c))
    | _ => none
  | .command o dir =>
    match w.phase o with
    | .running _ => some (w.setDir (env.dir o) dir)
    | _ => none
  | .finish o =>
    match w.phase o with
    | .running c => some ((w.setLock (env.dir o) none).setPhase o (.ran c))
    | _ => none
  | .error o =>
    if (w.phase o).holds then some ((w.setLock (env.dir o) none).setPhase o .gone)
    else some (w.setPhase o .gone)
  | .kill process =>
    some
      { w with
        lock := fun i => (w.lock i).filter fun o => o.process ≠ process
        phase := fun o => if o.process = process then .gone else w.phase o }

/-- The state after some steps. -/
def run (env : Env) (w : World) : List Label → Option World
  | [] => some w
  | l :: ls =>
    match step env w l with
    | some w' => run env w' ls
    | none => none

end Verif.TestDir
