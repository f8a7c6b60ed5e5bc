import Verif.Model.Basic

/-!
The store of direct references of a repository (libgit2's reference database), as used through
git/repo.rs `create_reference`, `find_reference` and git/reference.rs `delete`.
-/

namespace Verif

abbrev Refs := AMap Text Oid

/-- Why a reference operation failed. -/
inductive RefError where
  | pathConflict
deriving DecidableEq, Repr

/-- Two names which cannot exist together, because one is a directory of the other. -/
def pathConflict (a b : Text) : Bool :=
  (a ++ t!"/").isPrefixOf b || (b ++ t!"/").isPrefixOf a

/-- git/repo.rs:1079-1093 `create_reference` with `force = true`: create or move a reference.
libgit2 refuses a name which is a directory of an existing name, or the reverse; other failures
(locks, I/O) are not modelled. -/
def createReference (refs : Refs) (name : Text) (oid : Oid) : Except RefError Refs :=
  if refs.keys.any (pathConflict name) then .error .pathConflict
  else .ok (refs.insert name oid)

/-- git/reference.rs `Reference::delete`, for an existing reference. -/
def deleteReference (refs : Refs) (name : Text) : Refs := refs.erase name

end Verif
