import Verif.Model.RefTransaction

/-!
Where things are: the directory with the data of the program, the hooks, the working copy, for repositories with one
or more worktrees. Model of git-branchless-lib/src/git/repo.rs:474-667, of `working_directory` in
git-branchless-lib/src/git/run.rs, and of two functions of git-branchless-lib/src/core/config.rs.
-/

namespace Verif

/-- An absolute path, as its components, the last one first. -/
abbrev RPath := List Text

/-- A file called `gitdir`, which in a directory for a worktree holds the path of the file `.git` of the worktree. -/
inductive GitdirFile where
  | missing
  | unreadable
  | link (path : RPath)
deriving DecidableEq, Repr

/-- What is on the disk. Links are resolved. -/
structure Disk where
  /-- The directory is one of git: libgit2 takes it for a repository. -/
  gitDir : RPath → Bool
  /-- The directory has a file `.git`, with this path in it. -/
  gitFile : RPath → Option RPath
  /-- The file called `gitdir` in a directory (a line break at its end is removed). -/
  gitdirFile : RPath → GitdirFile
  /-- libgit2's `git_repository_workdir` for a directory of git. -/
  workdir : RPath → Option RPath
  /-- Rust's `canonicalize`: nothing if the directory does not exist. -/
  canonicalize : RPath → Option RPath

/-- A repository which was opened: its directory of git. -/
structure OpenedRepo where
  path : RPath
deriving DecidableEq, Repr

/-- libgit2's `git_repository_is_worktree`, which looks for a file `gitdir` in the directory. -/
def OpenedRepo.isWorktree (d : Disk) (r : OpenedRepo) : Bool :=
  match d.gitdirFile r.path with
  | .missing => false
  | _ => true

/-- One step of libgit2's `git_repository_discover`: `.git` in the directory, then the directory itself. `none`: nothing
was found; `some none`: an error. -/
def discoverAt (d : Disk) (p : RPath) : Option (Option OpenedRepo) :=
  if d.gitDir (t!".git" :: p) then some (some ⟨t!".git" :: p⟩)
  else
    match d.gitFile p with
    | some g => if d.gitDir g then some (some ⟨g⟩) else some none
    | none => if d.gitDir p then some (some ⟨p⟩) else none

/-- repo.rs:477-491 `from_dir`: libgit2 looks in the directory and then in those above. Other errors are not told
apart. -/
def Disk.fromDir (d : Disk) : RPath → Option OpenedRepo
  | [] => (discoverAt d []).join
  | c :: up =>
    match discoverAt d (c :: up) with
    | some r => r
    | none => d.fromDir up

/-- repo.rs:526-562 `get_working_copy_path`. -/
def OpenedRepo.workingCopyPath (d : Disk) (r : OpenedRepo) : Option RPath :=
  match d.workdir r.path with
  | none => none
  | some workdir =>
    if !r.isWorktree d then some workdir
    else
      match d.gitdirFile workdir with
      | .missing => some workdir
      | .unreadable => none
      | .link [] => none
      | .link (_ :: wt) => d.canonicalize wt

/-- repo.rs:575-596 `open_worktree_parent_repo`: `some none` if this is not a worktree, `none` for an error. -/
def OpenedRepo.worktreeParent (d : Disk) (r : OpenedRepo) : Option (Option OpenedRepo) :=
  if !r.isWorktree d then some none
  else
    match r.path with
    | _ :: _ :: _ :: up => (d.fromDir up).map some
    | _ => none

/-- repo.rs:610-622 `get_branchless_dir`: the data of the program. That the directory is made is not modelled. -/
def OpenedRepo.branchlessDir (d : Disk) (r : OpenedRepo) : Option RPath :=
  match r.worktreeParent d with
  | none => none
  | some (some parent) => some (t!"branchless" :: parent.path)
  | some none => some (t!"branchless" :: r.path)

/-- repo.rs:659-667 `get_db_conn`: the file with the event log. -/
def OpenedRepo.database (d : Disk) (r : OpenedRepo) : Option RPath := (r.branchlessDir d).map (t!"db.sqlite3" :: ·)

/-- config.rs:21-25 `get_default_hooks_dir`. -/
def OpenedRepo.defaultHooksDir (d : Disk) (r : OpenedRepo) : Option RPath :=
  match r.worktreeParent d with
  | none => none
  | some (some parent) => some (t!"hooks" :: parent.path)
  | some none => some (t!"hooks" :: r.path)

/-- The setting `core.hooksPath`, as `git config --type path` prints it. -/
inductive HooksSetting where
  | absolute (path : RPath)
  /-- The components of a relative path, the last one first. -/
  | relative (path : List Text)
deriving DecidableEq, Repr

/-- config.rs:38-62 `get_main_worktree_hooks_dir`, and the directory which the resulting path is for the operating system,
if the program was started in `cwd`. -/
def OpenedRepo.hooksDir (d : Disk) (setting : Option HooksSetting) (cwd : RPath) (r : OpenedRepo) : Option RPath :=
  match setting with
  | some (.absolute p) => some p
  | some (.relative p) => some (p ++ cwd)
  | none => r.defaultHooksDir d

/-- repo.rs:514-516 `get_packed_refs_path`. -/
def OpenedRepo.packedRefsPath (r : OpenedRepo) : RPath := t!"packed-refs" :: r.path

/-- repo.rs:520-522 `get_rebase_state_dir_path`. -/
def OpenedRepo.rebaseStateDir (r : OpenedRepo) : RPath := t!"rebase-merge" :: r.path

/-- run.rs:258-283 `working_directory`: where git and hooks are run. -/
def OpenedRepo.workingDirectory (d : Disk) (cwd : RPath) (r : OpenedRepo) : RPath :=
  match r.workingCopyPath d with
  | some wc => if wc <:+ cwd then wc else cwd
  | none => r.path

/-- git-branchless-hook/src/lib.rs:504-610: the hook for transactions of references, in an opened repository; `files` are the
files of the disk as text. -/
def OpenedRepo.refTransactionHook (files : RPath → Option Text) (r : OpenedRepo) (db : Db) (env : Option Text)
    (now : Timestamp) (resolve : Text → Option MaybeZero) (lines : List (Option Text)) : Bool × Db :=
  hookReferenceTransaction db env t!"committed" now (some (files r.packedRefsPath)) resolve lines

end Verif
