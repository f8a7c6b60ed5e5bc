import Verif.Model.Replay
import Verif.Model.Refs

/-!
Model of garbage collection: git-branchless-lib/src/core/gc.rs.
-/

namespace Verif

/-- What `Reference::peel_to_commit` (git/reference.rs) gives for the object a reference points to: the commit,
`none` if it is another kind of object, or an error (such as a missing object). -/
abbrev Peel := Oid → Except Unit (Option Oid)

/-- gc.rs:25-60 `find_dangling_references`: names of the references found, in the order of the
reference database. -/
def findDanglingReferences (peel : Peel) (r : Replayer) (c : Cursor) :
    Refs → Except Unit (List Text)
  | [] => .ok []
  | (name, target) :: refs =>
    if !isGcRef name then findDanglingReferences peel r c refs
    else
      match peel target with
      | .error e => .error e
      | .ok none => findDanglingReferences peel r c refs
      | .ok (some commit) =>
        match r.activityStatus c commit with
        | .active => findDanglingReferences peel r c refs
        | .inactive => findDanglingReferences peel r c refs
        | .obsolete =>
          match findDanglingReferences peel r c refs with
          | .error e => .error e
          | .ok names => .ok (name :: names)

/-- gc.rs:101-128 `gc`, given the replayed log. On an error nothing has been deleted. Failure of an
individual deletion is not modelled. -/
def gc (peel : Peel) (r : Replayer) (refs : Refs) : Except Unit Refs :=
  match findDanglingReferences peel r r.makeDefaultCursor refs with
  | .error e => .error e
  | .ok names => .ok (names.foldl deleteReference refs)

/-- gc.rs:75: the name of the keep-alive reference. -/
def keepAliveName (oid : Oid) : Text := t!"refs/branchless/" ++ oid.toText

/-- gc.rs:74-95 `mark_commit_reachable`. `isCommit` is `Repo::find_commit(..).is_some()`. The check
that the name is valid (76-79) always succeeds and is left out. -/
def markCommitReachable (isCommit : Oid → Bool) (refs : Refs) (oid : Oid) : Except RefError Refs :=
  if isCommit oid then createReference refs (keepAliveName oid) oid else .ok refs

end Verif
