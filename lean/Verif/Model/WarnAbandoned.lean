import Verif.Model.Restack
import Verif.Model.Reword
import Verif.Model.Snapshot

/-!
# The warning about abandoned commits after `git rebase` or `git commit --amend`

core/rewrite/rewrite_hooks.rs:239-344, at the end of the `post-rewrite` hook.
-/

namespace Verif

/-- What the warning is about: commits, and branches by their full names. -/
structure AbandonedItems where
  children : List Oid
  branches : List Text
deriving DecidableEq

/-- rewrite_hooks.rs:248-281: what was abandoned, for the commits which were rewritten; `r` and `d` are what was opened
after the events were added. Sets are lists without duplicates. -/
def abandonedItems (d : Dag) (r : Replayer) (refs : Replayer.RefsSnapshot) (old : List Oid) : AbandonedItems :=
  old.foldl (fun items o =>
    match findAbandonedChildren d r r.makeDefaultCursor o with
    | none => items
    | some (_, children) =>
      { children := (items.children ++ children).dedup
        branches := (items.branches ++ (refs.branchOidToNames.get? o).getD []).dedup }) ⟨[], []⟩

/-- rewrite_hooks.rs:284-326: the message, if there is a reason. -/
def abandonedMessage (items : AbandonedItems) : Option Text :=
  if items.children.length > 0 ∨ items.branches.length > 0 then
    let commits :=
      if items.children.length > 0 then [pluralize items.children.length t!"commit" t!"commits"] else []
    let branches :=
      if items.branches.length > 0 then
        [pluralize items.branches.length t!"branch" t!"branches" ++ t!" (" ++
          joinTexts t!", " ((items.branches.map fun n => (categorize n).renderSuffix).insertionSort (· ≤ ·)) ++ t!")"]
      else []
    some (t!"This operation abandoned " ++ joinTexts t!" and " (commits ++ branches) ++ t!"!")
  else none

/-- rewrite_hooks.rs:239-344 `warn_abandoned`; the outer `none` is an error. -/
def warnAbandoned (graph : CommitGraph Oid) (mainBranch : Text) (w : RepoWorld) (old : List Oid) :
    Option (Option Text) :=
  match w.git.referencesSnapshot mainBranch, openRepoDag graph mainBranch w with
  | some refs, some (r, d) => some (abandonedMessage (abandonedItems d r refs old))
  | _, _ => none

end Verif
