import Verif.Model.Lines
import Verif.Model.EventLog

/-!
core/rewrite/rewrite_hooks.rs: the `rewritten-list` file, and the post-rewrite and post-commit
hooks (the latter from git-branchless-hook/src/lib.rs).
-/

namespace Verif

/-- rewrite_hooks.rs:70-76: one line of the rewritten-list; `none` is an error. Anything after the
second field is ignored. -/
def parseRewrittenLine (line : Text) : Option (Oid × MaybeZero) :=
  match splitChar ' ' (trim line) with
  | old :: new :: _ =>
    match Oid.parse old, MaybeZero.parse new with
    | some o, some n => some (o, n)
    | _, _ => none
  | _ => none

/-- rewrite_hooks.rs:62-80 `read_rewritten_list_entries`: one bad line fails the whole call.
(Invalid UTF-8 is an error in the code and is not modelled.) -/
def readRewrittenListEntries (contents : Text) : Option (List (Oid × MaybeZero)) :=
  (textLines contents).mapM parseRewrittenLine

/-- rewrite_hooks.rs:83-100 `write_rewritten_list`: the contents written. -/
def writeRewrittenList (entries : List (Oid × MaybeZero)) : Text :=
  entries.flatMap fun (old, new) => (old.toText ++ ' ' :: new.toText) ++ ['\n']

/-- rewrite_hooks.rs:116-123, the loop over the current entries: new entries and what is left of
the entries to add. -/
def updateEntries : List (Oid × MaybeZero) → AMap Oid MaybeZero →
    List (Oid × MaybeZero) × AMap Oid MaybeZero
  | [], toAdd => ([], toAdd)
  | (old, new) :: rest, toAdd =>
    match toAdd.get? old with
    | some new' =>
      let (es, left) := updateEntries rest (toAdd.erase old)
      ((old, new') :: es, left)
    | none =>
      let (es, left) := updateEntries rest toAdd
      ((old, new) :: es, left)

/-- rewrite_hooks.rs:103-127 `add_rewritten_list_entries`: contents of the file before (`none`: no
file) and after; the outer `none` is an error. `shuffle` is the iteration order of the `HashMap`. -/
def addRewrittenListEntries (shuffle : List (Oid × MaybeZero) → List (Oid × MaybeZero))
    (file : Option Text) (entries : List (Oid × MaybeZero)) : Option Text :=
  let current := match file with
    | some contents => readRewrittenListEntries contents
    | none => some []
  match current with
  | none => none
  | some current =>
    let (new, left) := updateEntries current (AMap.ofList entries)
    some (writeRewrittenList (new ++ shuffle left))

/-- rewrite_hooks.rs:47-59 `read_deferred_commits` (`none` as file: not found; `none` as result:
error). -/
def readDeferredCommits (file : Option Text) : Option (List Oid) :=
  match file with
  | none => some []
  | some contents => (textLines contents).mapM Oid.parse

/-- What the hooks see and change: whether a rebase is underway (git's state directory exists),
the deferred-commits file in this directory, the event log, and the keep-alive references. -/
structure HookWorld where
  underway : Bool
  deferred : Option Text
  db : Db
  keptAlive : List Oid

/-- hook/lib.rs:84-159 `hook_post_commit_common`. `head` is the commit `HEAD` points to, `time` its
time, `env` the transaction id in the environment. Synchronising the commit graph (113-122) is not
modelled. -/
def hookPostCommit (w : HookWorld) (env : Option Text) (hookName : Text) (head : Option Oid)
    (time : Timestamp) : HookWorld :=
  match head with
  | none => w
  | some oid =>
    let w := { w with keptAlive := oid :: w.keptAlive }
    if w.underway then
      { w with deferred := some ((w.deferred.getD []) ++ (oid.toText ++ ['\n'])) }
    else
      let (tx, db) := w.db.makeTransactionId env hookName
      { w with db := db.addEvents [.commit time tx oid] }

/-- How `hook_post_rewrite` ended. -/
inductive HookResult where
  | spurious
  | error
  /-- The map of rewritten commits which is handed to `move_branches` and `check_out_updated_head`
  (when the extra actions are registered). -/
  | done (rewritten : AMap Oid MaybeZero)

/-- rewrite_hooks.rs:133-237 `hook_post_rewrite`, up to moving branches and checking out. -/
def hookPostRewrite (w : HookWorld) (env : Option Text) (rewriteType : Text) (now : Timestamp)
    (stdin : Text) : HookResult × HookWorld :=
  if rewriteType = t!"amend" ∧ w.underway = true then (.spurious, w)
  else
    let (tx, db) := w.db.makeTransactionId env t!"hook-post-rewrite"
    let w := { w with db }
    match readDeferredCommits w.deferred with
    | none => (.error, w)
    | some oids =>
      let w := { w with db := w.db.addEvents (oids.map fun o => .commit now tx o) }
      match readRewrittenListEntries stdin with
      | none => (.error, w)
      | some entries =>
        let events := entries.map fun e => Event.rewrite now tx (.nonZero e.1) e.2
        (.done (AMap.ofList entries), { w with db := w.db.addEvents events })

/-- git starts a rebase: it creates its state directory. -/
def HookWorld.beginRebase (w : HookWorld) : HookWorld := { w with underway := true, deferred := none }

/-- git ends (or aborts) a rebase: it removes its state directory with everything in it. -/
def HookWorld.endRebase (w : HookWorld) : HookWorld := { w with underway := false, deferred := none }

end Verif
