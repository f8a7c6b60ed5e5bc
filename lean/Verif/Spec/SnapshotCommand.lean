import Verif.Model.SnapshotCommand
import Verif.Spec.Snapshot

/-!
What the commands for snapshots are about: which states can be stored, and what is left of the files.
-/

namespace Verif.Spec

open Verif

/-- The file of the working copy at a path. -/
def SnapFile (w : SnapWorld) (p : TreePath) : Option File := AMap.get? w.files p

/-- There is a file of the tree in a directory with the name `p`, or `p` is in a directory with the name of a file
of the tree. -/
def Buried (t : Tree) (p : TreePath) : Prop := ∃ q, fileAt t q ≠ none ∧ (Below q p ∨ Below p q)

/-- What `git status` says about the files: all tracked paths which differ from `HEAD` are mentioned, and the mode of
the file is given (or that there is none). -/
structure ReportsFiles (head : Tree) (index : GitIndex) (files : AMap TreePath File) (es : List StatusEntry) :
    Prop where
  complete : ∀ p, Tracked head index p → AMap.get? files p ≠ fileAt head p →
    ∃ e ∈ es, ∃ q ∈ e.paths, components q = p
  tracked : ∀ e ∈ es, Tracked head index (components e.path)
  modes : ∀ e ∈ es, e.workingCopyMode.toI32 =
    match AMap.get? files (components e.path) with
    | some f => (f.1 : Int)
    | none => 0

/-- `HEAD` is a commit, and `git status` reports the index. There are no renames and no changes between files and
directories. -/
structure OrdinaryIndex (w : SnapWorld) (c : SnapCommit) (es : List StatusEntry) : Prop where
  commit : c ∈ w.repo.commits
  head : w.headOid = some (w.repo.commitId c)
  refName : ∀ name ∈ w.headRef, GoodRefName name
  plain : Plain c.tree
  index : ValidIndex w.index
  reports : ReportsIndex c.tree w.index es
  renames : NoRenames es
  nesting : NoNesting c.tree w.index

/-- Besides, `git status` reports the files, which are ordinary ones, not symbolic links. -/
structure OrdinaryFiles (w : SnapWorld) (c : SnapCommit) (es : List StatusEntry) : Prop where
  reports : ReportsFiles c.tree w.index w.files es
  modes : ∀ p f, SnapFile w p = some f → f.1 = 0o100644 ∨ f.1 = 0o100755

/-- The entries of the index are the same. -/
def SameIndex (i j : GitIndex) : Prop := ∀ k, AMap.get? i k = AMap.get? j k

/-- The references are the same. -/
def SameHead (h h' : SnapHead) : Prop := h.head = h'.head ∧ ∀ name, AMap.get? h.refs name = AMap.get? h'.refs name

/-- Every conflict in the index can be stored in a snapshot (see `Survives`). -/
def ConflictsSurvive (head : Tree) (index : GitIndex) : Prop :=
  ∀ p stage, stage ≠ .stage0 → AMap.get? index (p, stage) ≠ none → Survives head index p stage

/-- The change of the file at `p`, if `git status` reports one, is of a kind which the program knows: not, for
instance, a conflict. -/
def KnownChangeAt (es : List StatusEntry) (p : TreePath) : Prop :=
  ∀ e ∈ es, components e.path = p → e.workingCopyStatus.isChanged = true ∨ e.indexStatus.isChanged = true

/-- No untracked file is in a directory with the name of a tracked file, nor has it the name of a directory of one. -/
def NothingInTheWay (head : Tree) (w : SnapWorld) : Prop :=
  ∀ p q, SnapFile w p ≠ none → ¬ Tracked head w.index p → Tracked head w.index q → ¬ Below p q ∧ ¬ Below q p

end Verif.Spec
