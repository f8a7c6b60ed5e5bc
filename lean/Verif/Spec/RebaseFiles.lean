import Verif.Spec.Execute
import Verif.Spec.Tree
import Verif.Spec.Move

/-! The files of commits which are moved: what is known of the trees behind their ids, and what the files should be. -/

namespace Verif.Spec

open Verif

/-- A cherry-pick of trees, and its result by the id of the tree. -/
def SamePick (treeOf : Nat → Tree) : Except FastTreeError Tree → Except FastError Nat → Prop
  | .ok t, .ok n => treeOf n = t
  | .error (.mergeConflict _), .error (.conflict _) => True
  | .error .other, .error .other => True
  | _, _ => False

/-- The trees of the repository: `treeOf` gives the tree with an id, different ids have different trees, and cherry-picks
are those of trees (repo.rs:1314-1433 as called in execute.rs:632-643). `content` merges the contents of files. -/
structure FromTrees (content : Option File → File → File → Option File) (treeOf : Nat → Tree) (ee : ExecEnv) : Prop where
  distinct : ∀ a b, treeOf a = treeOf b → a = b
  picks : ∀ c d ps q x, ee.commits c = some d → d.parents.mapM ee.commits = some ps →
    (ee.commits q = some x ∨ ee.createCommit x = some q) →
    SamePick treeOf
      (Verif.cherryPickFast content true ⟨treeOf d.tree, ps.map fun y => treeOf y.tree⟩ ⟨treeOf x.tree, []⟩)
      (ee.cherryPickFast c q)

/-- Merging the contents of files makes no new modes. -/
def KeepsModes (content : Option File → File → File → Option File) : Prop :=
  ∀ b o t r, content b o t = some r → r.1 = o.1 ∨ r.1 = t.1

/-- None of the paths is below another one, and there is no file above or below one of them. -/
structure FilesApart (C : TreePath → Prop) (files : TreePath → Option File) : Prop where
  paths : ∀ p q, C p → C q → ¬ Below p q
  above : ∀ p q, C p → Below q p → files q = none
  below : ∀ p q, C p → Below p q → files q = none

/-- What the files should be after commits were moved (`moves p c`: the commit `c` onto `p`): the destination stays as it
is, and the files of a moved commit are merged path by path: the original, its parent, and what it is put on. No merge
fails, and no file is where another commit has a directory. -/
structure FilesMerge (content : Option File → File → File → Option File) (treeOf : Nat → Tree) (ee : ExecEnv)
    (moves : Oid → Oid → Prop) (files : Oid → TreePath → Option File) : Prop where
  stays : ∀ p c d, moves p c → (¬ ∃ q, moves q p) → ee.commits p = some d →
    ∀ path, files p path = fileAt (treeOf d.tree) path
  merges : ∀ p c d o base, moves p c → ee.commits c = some d → d.parents = [o] → ee.commits o = some base →
    ∀ path, MergesTo content (fileAt (treeOf base.tree) path) (files p path) (fileAt (treeOf d.tree) path) (files c path)
  apart : ∀ p c d o base, moves p c → ee.commits c = some d → d.parents = [o] → ee.commits o = some base →
    FilesApart (fun path => fileAt (treeOf base.tree) path ≠ fileAt (treeOf d.tree) path) (files p)

/-- The file of a commit at a path. -/
def commitFile (treeOf : Nat → Tree) (ee : ExecEnv) (c : Oid) (path : TreePath) : Option File :=
  (ee.commits c).bind fun d => fileAt (treeOf d.tree) path

/-- A commit has another file at the path than its parent. -/
def Changes (treeOf : Nat → Tree) (ee : ExecEnv) (graph : CommitGraph Oid) (c : Oid) (path : TreePath) : Prop :=
  ∃ o, IsParent graph o c ∧ commitFile treeOf ee o path ≠ commitFile treeOf ee c path

/-- The commits which are moved change only files which are the same at `base` and at `dest`, and none of them has a file
where another one, or `dest`, has a directory. -/
structure DisjointChanges (treeOf : Nat → Tree) (ee : ExecEnv) (graph : CommitGraph Oid) (moves : Oid → Oid → Prop)
    (base dest : Oid) : Prop where
  disjoint : ∀ p c path, moves p c → Changes treeOf ee graph c path →
    commitFile treeOf ee base path = commitFile treeOf ee dest path
  apart : ∀ p c x, moves p c → x = dest ∨ IsParent graph x c →
    FilesApart (Changes treeOf ee graph c) (commitFile treeOf ee x)

/-- The files of a commit after the move: those which were changed between `base` and `dest` are as at `dest`, all others
as they were. -/
def carriedFile (treeOf : Nat → Tree) (ee : ExecEnv) (base dest c : Oid) (path : TreePath) : Option File :=
  if commitFile treeOf ee base path = commitFile treeOf ee dest path then commitFile treeOf ee c path
  else commitFile treeOf ee dest path

end Verif.Spec
