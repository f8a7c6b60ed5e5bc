import Verif.Model.Tree

/-!
What is in a tree.
-/

namespace Verif.Spec

open Verif

/-- What is at a path inside an object. -/
def inside : Node → TreePath → Option Node
  | x, [] => some x
  | .leaf _ _, _ :: _ => none
  | .dir _ es, n :: p =>
    match AMap.get? es n with
    | none => none
    | some x => inside x p

/-- What is at a path of a tree. -/
def nodeAt (t : Tree) (p : TreePath) : Option Node := inside (.dir modeTree t) p

/-- An object as a file. -/
def fileOf : Option Node → Option File
  | some (.leaf m o) => some (m, o)
  | _ => none

/-- The file at a path of a tree. -/
def fileAt (t : Tree) (p : TreePath) : Option File := fileOf (nodeAt t p)

/-- Two objects differ as files (contents, mode or existence), or as directories with different modes. -/
def NodeDiffers (x y : Option Node) : Prop :=
  fileOf x ≠ fileOf y ∨ ∃ m es m' es', x = some (.dir m es) ∧ y = some (.dir m' es') ∧ m ≠ m'

/-- A commit differs at a path from one of its parents, or from the empty tree if there are none. -/
def TouchedBy (c : TreeCommit) (p : TreePath) : Prop :=
  (c.parents = [] ∧ NodeDiffers (nodeAt [] p) (nodeAt c.tree p)) ∨
    ∃ parent ∈ c.parents, NodeDiffers (nodeAt parent p) (nodeAt c.tree p)

/-- `q` is strictly below `p`. -/
def Below (p q : TreePath) : Prop := ∃ n r, q = p ++ n :: r

/-- The modes of files: ordinary, executable, symbolic link, submodule. -/
def fileModes : List Nat := [0o100644, 0o100755, 0o120000, 0o160000]

/-- All modes in a tree are the usual ones (git itself writes no others). -/
structure Plain (t : Tree) : Prop where
  dirs : ∀ p m es, nodeAt t p = some (.dir m es) → m = modeTree
  files : ∀ p m o, nodeAt t p = some (.leaf m o) → m ∈ fileModes

/-- None of the paths is below another one, and the tree has no file above or below one of them. -/
structure Apart (C : TreePath → Prop) (t : Tree) : Prop where
  paths : ∀ p q, C p → C q → ¬ Below p q
  above : ∀ p q, C p → Below q p → fileAt t q = none
  below : ∀ p q, C p → Below p q → fileAt t q = none

/-- The three-way merge of a file (or its absence): a change of one side is taken; if both sides changed
it in different ways, the contents are merged. -/
inductive MergesTo (content : Option File → File → File → Option File) :
    Option File → Option File → Option File → Option File → Prop
  | same (b x) : MergesTo content b x x x
  | theirs (x y) : MergesTo content x x y y
  | ours (x y) : MergesTo content x y x y
  | both (b o t r) : b ≠ some o → b ≠ some t → o ≠ t → content b o t = some r →
      MergesTo content b (some o) (some t) (some r)

end Verif.Spec
