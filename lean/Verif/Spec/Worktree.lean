import Verif.Model.Worktree

/-! How git lays out a repository and its worktrees (gitrepository-layout). -/

namespace Verif.Spec

open Verif

/-- A repository which is no worktree of another: a directory of git without the file `gitdir`. -/
structure IsMain (d : Disk) (git : RPath) : Prop where
  valid : d.gitDir git = true
  own : d.gitdirFile git = .missing

/-- The usual place: `.git` in the working copy. -/
structure OrdinaryRepo (d : Disk) (root : RPath) : Prop extends IsMain d (t!".git" :: root) where
  workdir : d.workdir (t!".git" :: root) = some root

/-- A worktree `wt` of the repository at `git`: the file `.git` in it leads to `worktrees/<name>` below `git`, where a file
`gitdir` leads back. libgit2 sometimes takes that directory for the working copy. -/
structure WorktreeOf (d : Disk) (git : RPath) (name : Text) (wt : RPath) : Prop where
  valid : d.gitDir (name :: t!"worktrees" :: git) = true
  forth : d.gitFile wt = some (name :: t!"worktrees" :: git)
  noDir : d.gitDir (t!".git" :: wt) = false
  back : d.gitdirFile (name :: t!"worktrees" :: git) = .link (t!".git" :: wt)
  there : d.canonicalize wt = some wt
  workdir : d.workdir (name :: t!"worktrees" :: git) = some wt ∨
    d.workdir (name :: t!"worktrees" :: git) = some (name :: t!"worktrees" :: git)

/-- A directory in (or equal to) a working copy, with no other repository between. -/
def InsideOf (d : Disk) (cwd top : RPath) : Prop :=
  top <:+ cwd ∧ ∀ p, p <:+ cwd → top <:+ p → p ≠ top →
    d.gitDir (t!".git" :: p) = false ∧ d.gitFile p = none ∧ d.gitDir p = false

end Verif.Spec
