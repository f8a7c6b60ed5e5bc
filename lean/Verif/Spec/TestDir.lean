import Verif.Model.TestDir

/-! When a directory has a commit checked out. -/

namespace Verif.Spec

open Verif.TestDir

/-- A commit with this tree is checked out in the directory: its files are there as they are in it, and only they are
tracked. -/
def HasTree (tree : Text → Option Text) (dir : Dir) : Prop :=
  (∀ p t, tree p = some t → dir.files p = some t) ∧ ∀ p, dir.index p = tree p

end Verif.Spec
