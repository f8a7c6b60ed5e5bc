import Verif.Props.Worktree

/-! C99, concrete cases: `/home/me/project` with a worktree `/home/me/wt`, and the worktree `/srv/wt` of the bare repository
`/srv/repo.git`. -/

namespace Verif.Props

open Verif Verif.Spec

def exWtRoot : RPath := [t!"project", t!"me", t!"home"]
def exWtTree : RPath := [t!"wt", t!"me", t!"home"]
def exWtGit : RPath := t!".git" :: exWtRoot
def exWtDir : RPath := t!"wt" :: t!"worktrees" :: exWtGit
def exBareGit : RPath := [t!"repo.git", t!"srv"]
def exBareTree : RPath := [t!"wt", t!"srv"]
def exBareDir : RPath := t!"wt" :: t!"worktrees" :: exBareGit

def exWtDisk : Disk where
  gitDir p := p == exWtGit || p == exWtDir || p == exBareGit || p == exBareDir
  gitFile p := if p = exWtTree then some exWtDir else if p = exBareTree then some exBareDir else none
  gitdirFile p :=
    if p = exWtDir then .link (t!".git" :: exWtTree)
    else if p = exBareDir then .link (t!".git" :: exBareTree)
    else .missing
  workdir p :=
    if p = exWtGit then some exWtRoot else if p = exWtDir then some exWtDir
    else if p = exBareDir then some exBareTree else none
  canonicalize p := some p

example : OrdinaryRepo exWtDisk exWtRoot := ⟨⟨by decide +kernel, by decide +kernel⟩, by decide +kernel⟩

example : WorktreeOf exWtDisk exWtGit t!"wt" exWtTree where
  valid := by decide +kernel
  forth := by decide +kernel
  noDir := by decide +kernel
  back := by decide +kernel
  there := rfl
  workdir := .inr (by decide +kernel)

theorem exBareWorktree : WorktreeOf exWtDisk exBareGit t!"wt" exBareTree where
  valid := by decide +kernel
  forth := by decide +kernel
  noDir := by decide +kernel
  back := by decide +kernel
  there := rfl
  workdir := .inl (by decide +kernel)

example : InsideOf exWtDisk exWtTree exWtTree := ⟨List.suffix_refl _, fun _ h1 h2 h3 =>
  absurd (List.IsSuffix.eq_of_length h1 (Nat.le_antisymm h1.length_le h2.length_le)) h3⟩

example : InsideOf exWtDisk (t!"src" :: exWtTree) exWtTree := by
  refine ⟨List.suffix_cons _ _, fun p h1 h2 h3 => ?_⟩
  rcases List.suffix_cons_iff.1 h1 with rfl | h
  · exact ⟨by decide +kernel, by decide +kernel, by decide +kernel⟩
  · exact absurd (List.IsSuffix.eq_of_length h (Nat.le_antisymm h.length_le h2.length_le)) h3

/-- In the ordinary repository the worktree has the same event log. -/
example : (exWtDisk.fromDir (t!"src" :: exWtTree)).bind (·.database exWtDisk) =
      some [t!"db.sqlite3", t!"branchless", t!".git", t!"project", t!"me", t!"home"] ∧
    (exWtDisk.fromDir (t!"src" :: exWtTree)).bind (·.database exWtDisk) =
      (exWtDisk.fromDir exWtRoot).bind (·.database exWtDisk) ∧
    (exWtDisk.fromDir (t!"src" :: exWtTree)).bind (·.workingCopyPath exWtDisk) = some exWtTree := by
  decide +kernel

/-- The worktree of the bare repository has none: every command fails. -/
theorem bare_worktree_no_data : ∃ r, exWtDisk.fromDir exBareTree = some r ∧ r.branchlessDir exWtDisk = none := by
  have hin : InsideOf exWtDisk exBareTree exBareTree := ⟨List.suffix_refl _, fun _ h1 h2 h3 =>
    absurd (List.IsSuffix.eq_of_length h1 (Nat.le_antisymm h1.length_le h2.length_le)) h3⟩
  obtain ⟨r, h1, h2, _⟩ := bare_worktree_fails exBareWorktree hin (fun p hp => by
    rcases List.suffix_cons_iff.1 hp with rfl | h
    · decide +kernel
    · rw [List.suffix_nil] at h
      subst h
      decide +kernel)
  exact ⟨r, h1, h2⟩

/-- `/super/.git/modules/sub` is the repository of a submodule, with a worktree `/wt`; the data which is used there is that
of `/super`. -/
def exSubDisk : Disk where
  gitDir p := p == [t!".git", t!"super"] || p == [t!"sub", t!"modules", t!".git", t!"super"] ||
    p == [t!"wt", t!"worktrees", t!"sub", t!"modules", t!".git", t!"super"]
  gitFile p := if p = [t!"wt"] then some [t!"wt", t!"worktrees", t!"sub", t!"modules", t!".git", t!"super"] else none
  gitdirFile p :=
    if p = [t!"wt", t!"worktrees", t!"sub", t!"modules", t!".git", t!"super"] then .link [t!".git", t!"wt"] else .missing
  workdir p := if p = [t!".git", t!"super"] then some [t!"super"] else some [t!"wt"]
  canonicalize p := some p

theorem submodule_worktree_uses_superproject :
    (exSubDisk.fromDir [t!"wt"]).bind (·.database exSubDisk) =
      some [t!"db.sqlite3", t!"branchless", t!".git", t!"super"] ∧
    (exSubDisk.fromDir [t!"super"]).bind (·.database exSubDisk) =
      some [t!"db.sqlite3", t!"branchless", t!".git", t!"super"] := by
  decide +kernel

example : WorktreeOf exSubDisk [t!"sub", t!"modules", t!".git", t!"super"] t!"wt" [t!"wt"] where
  valid := by decide +kernel
  forth := by decide +kernel
  noDir := by decide +kernel
  back := by decide +kernel
  there := rfl
  workdir := .inl (by decide +kernel)

/-- The hypotheses of `submodule_worktree_uses_other` about the outer repository. -/
example : IsMain exSubDisk [t!".git", t!"super"] := ⟨by decide +kernel, by decide +kernel⟩

example : InsideOf exSubDisk [t!"modules", t!".git", t!"super"] [t!".git", t!"super"] := by
  refine ⟨List.suffix_cons _ _, fun p h1 h2 h3 => ?_⟩
  rcases List.suffix_cons_iff.1 h1 with rfl | h
  · exact ⟨by decide +kernel, by decide +kernel, by decide +kernel⟩
  · exact absurd (List.IsSuffix.eq_of_length h (Nat.le_antisymm h.length_le h2.length_le)) h3

/-- The hypotheses of `worktree_uses_other_repo`, for a bare repository `/home/me/project/repo.git` in the working copy
`/home/me/project`. -/
example : InsideOf exWtDisk exWtRoot exWtRoot ∧ t!"repo.git" :: exWtRoot ≠ t!".git" :: exWtRoot :=
  ⟨⟨List.suffix_refl _, fun _ h1 h2 h3 =>
    absurd (List.IsSuffix.eq_of_length h1 (Nat.le_antisymm h1.length_le h2.length_le)) h3⟩, by decide +kernel⟩

end Verif.Props
