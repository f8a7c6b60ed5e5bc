import Verif.Model.Snapshot
import Verif.Spec.Tree

/-!
What snapshots of the working copy are about: the index and its conflicts, what `git status` reports, and
when two trees are the same.
-/

namespace Verif.Spec

open Verif

/-- A path in conflict: it has an entry in one of the stages 1 to 3. -/
def Conflicted (index : GitIndex) (p : TreePath) : Prop :=
  ∃ s, s ≠ Stage.stage0 ∧ AMap.get? index (p, s) ≠ none

/-- A file as an entry of the index. -/
def entryOf (f : Option File) : Option (Nat × MaybeZero) := f.map fun f => (f.1, .nonZero f.2)

/-- A path of `HEAD` or of the index. -/
def Tracked (head : Tree) (index : GitIndex) (p : TreePath) : Prop :=
  fileAt head p ≠ none ∨ ∃ s, AMap.get? index (p, s) ≠ none

/-- The index is as git writes it: one entry for a path and stage, with the usual modes and with an object;
a path in conflict has no entry in stage 0. -/
structure ValidIndex (index : GitIndex) : Prop where
  wf : AMap.WF index
  entries : ∀ k m o, AMap.get? index k = some (m, o) → m ∈ fileModes ∧ o ≠ .zero
  conflicts : ∀ p, Conflicted index p → AMap.get? index (p, .stage0) = none

/-- What `git status` says about the index: all paths which are in conflict or which differ from `HEAD`
are mentioned (a rename mentions two paths, the second one as the original path); only tracked paths are
the path of an entry; and the paths in conflict have entries of that kind. -/
structure ReportsIndex (head : Tree) (index : GitIndex) (es : List StatusEntry) : Prop where
  complete : ∀ p, Conflicted index p ∨ AMap.get? index (p, .stage0) ≠ entryOf (fileAt head p) →
    ∃ e ∈ es, ∃ q ∈ e.paths, components q = p
  tracked : ∀ e ∈ es, Tracked head index (components e.path)
  unmerged : ∀ e ∈ es, e.indexStatus = .unmerged ↔ Conflicted index (components e.path)

/-- No entry is a rename or a copy. -/
def NoRenames (es : List StatusEntry) : Prop := ∀ e ∈ es, e.origPath = none

/-- No tracked path is a directory of another one. (So the change of a file to a directory, and the other
way round, is excluded.) -/
def NoNesting (head : Tree) (index : GitIndex) : Prop :=
  ∀ p q, Tracked head index p → Tracked head index q → ¬ Below p q

/-- Commits with the same hash are the same. (To be required of the commits of a repository only.) -/
def NoCollisionsIn (r : SnapRepo) : Prop :=
  ∀ c ∈ r.commits, ∀ c' ∈ r.commits, r.commitId c = r.commitId c' → c = c'

/-- A repository with more commits. -/
structure Extends (r r' : SnapRepo) : Prop where
  commitId : r'.commitId = r.commitId
  treeId : r'.treeId = r.treeId
  commits : ∀ c ∈ r.commits, c ∈ r'.commits

/-- A name as git allows it for references, as far as needed: not empty, no control characters and no
space. -/
def GoodRefName (name : Text) : Prop := name ≠ [] ∧ ∀ c ∈ name, 32 < c.toNat

/-- What is at a path, without what is in a directory. -/
def treeLabel : Option Node → Option (Nat × Option Oid)
  | none => none
  | some (.leaf m o) => some (m, some o)
  | some (.dir m _) => some (m, none)

/-- Two trees have the same contents. -/
def SameTree (t t' : Tree) : Prop := ∀ p, treeLabel (nodeAt t p) = treeLabel (nodeAt t' p)

/-- Among the given trees, those with the same hash have the same contents. -/
def TreeIdsExact (r : SnapRepo) (ts : List Tree) : Prop :=
  ∀ t ∈ ts, ∀ t' ∈ ts, r.treeId t = r.treeId t' ↔ SameTree t t'

/-- The directories of a tree are as git writes them: with the usual mode, and none of them is empty. -/
def Solid (t : Tree) : Prop := ∀ p m es, p ≠ [] → nodeAt t p = some (.dir m es) → m = modeTree ∧ es ≠ []

/-- The stages of conflicts, in the order in which they are restored: the second one comes later. -/
inductive Later : Stage → Stage → Prop
  | s12 : Later .stage1 .stage2
  | s13 : Later .stage1 .stage3
  | s23 : Later .stage2 .stage3

/-- An entry of a path in conflict which survives: it differs from the file in `HEAD`, and if there is a
file in `HEAD`, then no later stage is missing. -/
def Survives (head : Tree) (index : GitIndex) (p : TreePath) (s : Stage) : Prop :=
  AMap.get? index (p, s) ≠ entryOf (fileAt head p) ∧
    (fileAt head p = none ∨ ∀ t, Later s t → AMap.get? index (p, t) ≠ none)

/-- A file of the working copy as git would store it. `mode` says which ordinary files are executable. -/
def workFile (wc : WorkingCopy) (mode : TreePath → Nat) (p : TreePath) : Option File :=
  match AMap.get? wc p with
  | some (.file blob) => some (mode p, blob)
  | some (.link blob _) => some (0o120000, blob)
  | none => none

/-- What `git status` says about the working copy: all tracked paths which differ from `HEAD` are mentioned,
and the mode of the file in the working copy is given (or that there is none). -/
structure ReportsWork (head : Tree) (index : GitIndex) (wc : WorkingCopy) (mode : TreePath → Nat)
    (es : List StatusEntry) : Prop where
  complete : ∀ p, Tracked head index p → workFile wc mode p ≠ fileAt head p →
    ∃ e ∈ es, ∃ q ∈ e.paths, components q = p
  tracked : ∀ e ∈ es, Tracked head index (components e.path)
  modes : ∀ e ∈ es, e.workingCopyMode.toI32 =
    match workFile wc mode (components e.path) with
    | some f => (f.1 : Int)
    | none => 0

/-- A commit is reachable from another one by parents (so it is not removed by `git gc` as long as the
other one is there). -/
inductive KeepsAlive (r : SnapRepo) : Oid → Oid → Prop
  | refl (o : Oid) : KeepsAlive r o o
  | step {c : SnapCommit} {p o : Oid} : c ∈ r.commits → p ∈ c.parents → KeepsAlive r p o →
      KeepsAlive r (r.commitId c) o

/-- The parents of the commits are there. -/
def ParentsThere (r : SnapRepo) : Prop :=
  ∀ c ∈ r.commits, ∀ p ∈ c.parents, ∃ c' ∈ r.commits, r.commitId c' = p

end Verif.Spec
