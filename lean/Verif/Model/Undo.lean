import Verif.Model.Replay
import Verif.Model.Reference
import Verif.Model.Refs

/-!
git-branchless-undo/src/lib.rs: inverting events and applying them.
-/

namespace Verif

/-- undo/lib.rs:648-718 `inverse_event` (`now` as seconds since the epoch). -/
def inverseEvent (now : Timestamp) (tx : TxId) : Event → Event
  | .commit _ _ o => .obsolete now tx o
  | .unobsolete _ _ o => .obsolete now tx o
  | .obsolete _ _ o => .unobsolete now tx o
  | .rewrite _ _ old new => .rewrite now tx new old
  | .refUpdate _ _ name old new _ => .refUpdate now tx name new old none
  | .snapshot ts tx' head oid name => .snapshot ts tx' head oid name

/-- undo/lib.rs:720-724 `UndoCheckoutTarget`: the commit and the extra arguments of the checkout. -/
structure UndoCheckout where
  target : Oid
  args : List Text
deriving DecidableEq

/-- undo/lib.rs:732-776, the body of the loop of `extract_checkout_target`: the checkout target found
so far, and the other events so far. -/
def extractStep (x : Option UndoCheckout × List Event) (e : Event) :
    Option UndoCheckout × List Event :=
  match e with
  | .refUpdate _ _ name _ (.nonZero o) _ =>
    if name = t!"HEAD" then (some ⟨o, [t!"--detach"]⟩, x.2) else (x.1, x.2 ++ [e])
  | .snapshot _ _ _ oid name =>
    (some ⟨oid, match name with
      | some n => [t!"-B", (categorize n).renderSuffix]
      | none => []⟩, x.2)
  | e => (x.1, x.2 ++ [e])

/-- undo/lib.rs:726-780 `extract_checkout_target`. -/
def extractCheckoutTarget (events : List Event) : Option UndoCheckout × List Event :=
  events.foldl extractStep (none, [])

/-- undo/lib.rs:798-811, the `filter`: `HEAD` updates without an old position are not inverted. -/
def isInitialHeadUpdate : Event → Bool
  | .refUpdate _ _ name .zero _ _ => name == t!"HEAD"
  | _ => false

/-- undo/lib.rs:794-813: the inverse events, newest event first. -/
def inverseEvents (since : List Event) (now : Timestamp) (tx : TxId) : List Event :=
  (since.reverse.filter fun e => !isInitialHeadUpdate e).map (inverseEvent now tx)

/-- What undo changes: the references and the event log. -/
structure UndoWorld where
  refs : Refs
  db : Db

/-- undo/lib.rs:861-921, one iteration of the loop over the events to apply. -/
def applyInverse (w : UndoWorld) : Event → Except RefError UndoWorld
  | .refUpdate _ _ _ .zero .zero _ => .ok w
  | .refUpdate _ _ name (.nonZero _) .zero _ =>
    match w.refs.get? name with
    | some _ => .ok { w with refs := deleteReference w.refs name }
    | none => .ok w
  | .refUpdate _ _ name _ (.nonZero o) _ =>
    match createReference w.refs name o with
    | .error e => .error e
    | .ok refs => .ok { w with refs }
  | .snapshot .. => .ok w
  | e => .ok { w with db := w.db.addEvents [e] }

/-- undo/lib.rs:861-921, the loop; an error leaves the earlier changes in place and stops. -/
def applyInverses (w : UndoWorld) : List Event → Except (RefError × UndoWorld) UndoWorld
  | [] => .ok w
  | e :: es => match applyInverse w e with
    | .error err => .error (err, w)
    | .ok w => applyInverses w es

/-- How `undo_events` ended. -/
inductive UndoResult where
  | nothingToDo
  | aborted
  /-- All events applied; the checkout to run next (an external `git checkout`), if any. -/
  | applied (checkout : Option UndoCheckout)
  | failed (err : RefError)
deriving DecidableEq

/-- undo/lib.rs:783-942 `undo_events`, up to the final checkout, which is done by `git` and is
given as part of the result. `detach_head` (859) only changes `HEAD` and is left out, as are
messages. -/
def undoEvents (w : UndoWorld) (r : Replayer) (c : Cursor) (now : Timestamp) (env : Option Text)
    (confirmed : Bool) : Except Panic (UndoResult × UndoWorld) :=
  let (tx, db) := w.db.makeTransactionId env t!"undo"
  let w := { w with db }
  match r.eventsSinceCursor c with
  | .error p => .error p
  | .ok since =>
    let inverse := inverseEvents since now tx
    if inverse.isEmpty then .ok (.nothingToDo, w)
    else if !confirmed then .ok (.aborted, w)
    else
      let (target, filtered) := extractCheckoutTarget inverse
      match applyInverses w filtered with
      | .error (err, w) => .ok (.failed err, w)
      | .ok w => .ok (.applied target, w)

end Verif
