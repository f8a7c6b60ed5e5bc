import Verif.Model.Undo
import Verif.Model.Switch
import Verif.Model.Hide
import Verif.Model.Lines

/-!
The command `git undo`: choosing a past state, confirming, applying the inverse events, and checking out
where `HEAD` was. Model of git-branchless-undo/src/lib.rs (`select_past_event`, `undo_events`, `undo`) and of
git-branchless-lib/src/core/check_out.rs (`check_out_commit` with snapshots, `restore_snapshot`), as far as
references, `HEAD` and the event log are concerned. (For the index and the files in snapshots see
Model/Snapshot.lean.)
-/

namespace Verif

/-! ### choosing a past state -/

/-- undo/lib.rs:437-447 `Message`, as far as it comes from keys. `goTo` is `GoToEvent` together with the text
which the user enters and submits in the dialog. -/
inductive UndoMessage where
  | next
  | previous
  | goTo (text : Text)
  | help
  | quit
  | select
deriving DecidableEq

/-- undo/lib.rs:450-477: the message for a key, where arrows are `left` and `right`, and `enter`. `g` is not
here since it takes a text. -/
inductive UndoKey where
  | char (c : Char)
  | left
  | right
  | enter
deriving DecidableEq

/-- undo/lib.rs:450-477: the callbacks for keys; other keys are ignored. -/
def messageForKey : UndoKey → Option UndoMessage
  | .char 'n' => some .next
  | .char 'N' => some .next
  | .right => some .next
  | .char 'p' => some .previous
  | .char 'P' => some .previous
  | .left => some .previous
  | .char 'h' => some .help
  | .char 'H' => some .help
  | .char '?' => some .help
  | .char 'q' => some .quit
  | .char 'Q' => some .quit
  | .enter => some .select
  | .char _ => none

/-- How `select_past_event` ends. -/
inductive Selection where
  | selected (cursor : Cursor)
  /-- The user left without selecting. -/
  | left
  /-- An `eyre` error. -/
  | error
  | panic
deriving DecidableEq

/-- undo/lib.rs:481-645: the loop over the messages, with the cursor. `draw` says for which cursors the screen
can be drawn (495-541; what is drawn is not modelled). Help and dialogs do not change the cursor. If there are
no more messages then the user interface was stopped. -/
def selectLoop (draw : Cursor → Bool) (r : Replayer) : Cursor → List UndoMessage → Selection
  | _, [] => .left
  | c, .next :: rest =>
    match r.advanceCursorByTransaction c 1 with
    | .error _ => .panic
    | .ok c => if draw c then selectLoop draw r c rest else .error
  | c, .previous :: rest =>
    match r.advanceCursorByTransaction c (-1) with
    | .error _ => .panic
    | .ok c => if draw c then selectLoop draw r c rest else .error
  | c, .goTo text :: rest =>
    match parseIsize text with
    | some i => if draw (r.makeCursor i) then selectLoop draw r (r.makeCursor i) rest else .error
    | none => selectLoop draw r c rest
  | c, .help :: rest => selectLoop draw r c rest
  | _, .quit :: _ => .left
  | c, .select :: _ => .selected c

/-- undo/lib.rs:429-646 `select_past_event`. -/
def selectPastEvent (draw : Cursor → Bool) (r : Replayer) (messages : List UndoMessage) : Selection :=
  let c := r.makeDefaultCursor
  if draw c then selectLoop draw r c messages else .error

/-! ### checking out -/

/-- What is stored in a snapshot about `HEAD`, and its commit with the unstaged changes
(snapshot.rs:47-86 `WorkingCopySnapshot`). -/
structure StoredSnapshot where
  head : Option Oid
  reference : Option Text
  unstaged : Oid
deriving DecidableEq

/-- How `git undo` ends. -/
inductive UndoEnd where
  /-- An `eyre` error. -/
  | error
  | panic
  /-- Exit code 0: nothing was selected. -/
  | left
  /-- Exit code 0. -/
  | nothingToDo
  /-- Exit code 1. -/
  | aborted
  /-- The exit code of a command of git. -/
  | gitFailed
  /-- Exit code 0: how many inverse events were applied. -/
  | done (n : Nat)
deriving DecidableEq

/-- What `git undo` depends on. -/
structure UndoEnv where
  checkout : AnyCheckoutEnv
  /-- The time. (The code asks for it again when it takes a snapshot.) -/
  now : Timestamp
  /-- The variable `BRANCHLESS_TRANSACTION_ID`. -/
  txVar : Option Text
  /-- The line which is read as answer, if one can be read. -/
  answer : Option Text
  draw : Cursor → Bool
  messages : List UndoMessage
  /-- `branchless.undo.createSnapshots` -/
  createSnapshots : Bool
  /-- The base commit of a snapshot of the working copy; see `createSnapshot`. -/
  newSnapshot : GitState → Except Unit Oid
  /-- The commit as a snapshot, if it is one; see `tryFromBaseCommit`. -/
  loadSnapshot : Oid → Except Unit (Option StoredSnapshot)
  /-- `git reset` can be done. -/
  resetWorks : GitState → Bool
  /-- `git update-index` can be done. -/
  indexWorks : Bool
  /-- What the hooks add to the event log when git was run with these arguments and changed one state to
  another. -/
  hooks : List Text → GitState → GitState → TxId → List Event
  /-- The smartlog can be shown. -/
  smartlogWorks : Bool

/-- git/run.rs `run`: git was run and changed the references; its hooks added events. -/
def ranGit (env : UndoEnv) (tx : TxId) (w : RepoWorld) (args : List Text) (g : GitState) : RepoWorld :=
  { w with git := g, db := w.db.addEvents (env.hooks args w.git g tx) }

/-- `git reset <commit>` (an external program): moves the branch of `HEAD`, or `HEAD`. -/
def gitResetTo (env : UndoEnv) (g : GitState) (o : Oid) : Option GitState :=
  if !env.resetWorks g then none
  else
    match g.head with
    | .symbolic name =>
      match createReference g.refs name o with
      | .error _ => none
      | .ok refs => some { g with refs }
    | .detached _ => some { g with head := .detached o }
    | .missing => none

/-- `git update-ref <name> <oid>` (an external program); the zero id deletes the reference. -/
def gitUpdateRef (g : GitState) (name : Text) : Option Oid → Option GitState
  | none => some { g with refs := deleteReference g.refs name }
  | some o =>
    match createReference g.refs name o with
    | .error _ => none
    | .ok refs => some { g with refs }

/-- `git symbolic-ref HEAD <name>` (an external program). -/
def gitSymbolicRef (g : GitState) (name : Text) : Option GitState :=
  if t!"refs/" <+: name then some { g with head := .symbolic name } else none

/-- check_out.rs:332-355: the branch of the snapshot is restored. -/
def restoreBranch (env : UndoEnv) (tx : TxId) (w : RepoWorld) (s : StoredSnapshot) :
    Except (UndoEnd × RepoWorld) RepoWorld :=
  match s.reference with
  | none => .ok w
  | some name =>
    match gitUpdateRef w.git name s.head with
    | none => .error (.gitFailed, w)
    | some g =>
      let w := ranGit env tx w [t!"update-ref", name, (MaybeZero.ofOption s.head).toText] g
      match gitSymbolicRef w.git name with
      | none => .error (.gitFailed, w)
      | some g => .ok (ranGit env tx w [t!"symbolic-ref", t!"HEAD", name] g)

/-- check_out.rs:241-355 `restore_snapshot`, as far as it concerns references. -/
def restoreSnapshot (env : UndoEnv) (tx : TxId) (w : RepoWorld) (s : StoredSnapshot) :
    Except (UndoEnd × RepoWorld) RepoWorld :=
  if !env.resetWorks w.git then .error (.gitFailed, w)
  else
    match gitCheckoutRun env.checkout.git w.git [s.unstaged.toText] with
    | none => .error (.gitFailed, w)
    | some g =>
      let w := ranGit env tx w [t!"checkout", s.unstaged.toText] g
      match s.head with
      | none => if !env.indexWorks then .error (.error, w) else restoreBranch env tx w s
      | some h =>
        match gitResetTo env w.git h with
        | none => .error (.gitFailed, w)
        | some g =>
          let w := ranGit env tx w [t!"reset", h.toText] g
          if !env.indexWorks then .error (.error, w) else restoreBranch env tx w s

/-- check_out.rs:207-231 `create_snapshot`: the event is added. -/
def recordSnapshot (env : UndoEnv) (tx : TxId) (w : RepoWorld) : Except (UndoEnd × RepoWorld) RepoWorld :=
  match env.newSnapshot w.git with
  | .error _ => .error (.error, w)
  | .ok o =>
    let e : Event :=
      .snapshot env.now tx (MaybeZero.ofOption w.git.headInfo.oid) o w.git.headInfo.referenceName
    .ok { w with db := w.db.addEvents [e] }

/-- check_out.rs:175-191: the snapshot is restored if one is checked out now. -/
def restoreIfSnapshot (env : UndoEnv) (tx : TxId) (w : RepoWorld) : Except (UndoEnd × RepoWorld) RepoWorld :=
  match w.git.headInfo.oid with
  | none => .ok w
  | some o =>
    match env.loadSnapshot o with
    | .error _ => .error (.error, w)
    | .ok none => .ok w
    | .ok (some s) => restoreSnapshot env tx w s

/-- check_out.rs:107-200 `check_out_commit`, with snapshots and without `reset`. -/
def checkOutUndone (env : UndoEnv) (tx : TxId) (w : RepoWorld) (t : UndoCheckout) :
    Except (UndoEnd × RepoWorld) RepoWorld :=
  match if env.createSnapshots then recordSnapshot env tx w else .ok w with
  | .error e => .error e
  | .ok w =>
    match checkOutAny env.checkout w.git (some (.oid t.target)) t.args with
    | .error _ => .error (.error, w)
    | .ok r =>
      if !r.ok then .error (.gitFailed, w)
      else
        match restoreIfSnapshot env tx (ranGit env tx w r.ran r.git) with
        | .error e => .error e
        | .ok w => if env.smartlogWorks then .ok w else .error (.gitFailed, w)

/-! ### undoing -/

/-- undo/lib.rs:833-846: the answer to the question. -/
def confirms (answer : Option Text) : Bool :=
  match answer with
  | some line => trim line = t!"y" || trim line = t!"Y"
  | none => false

/-- undo/lib.rs:857-942: the inverse events are applied. -/
def undoApply (env : UndoEnv) (tx : TxId) (w : RepoWorld) (inverse : List Event) : UndoEnd × RepoWorld :=
  let headInfo := w.git.headInfo
  let (target, filtered) := extractCheckoutTarget inverse
  let git := if target.isSome then w.git.detachHead headInfo else w.git
  match applyInverses ⟨git.refs, w.db⟩ filtered with
  | .error (_, u) => (.error, { w with git := { git with refs := u.refs }, db := u.db })
  | .ok u =>
    let w := { w with git := { git with refs := u.refs }, db := u.db }
    match target with
    | none => (.done inverse.length, w)
    | some t =>
      match checkOutUndone env tx w t with
      | .error e => e
      | .ok w => (.done inverse.length, w)

/-- undo/lib.rs:782-942 `undo_events`. Describing the events (819-828) is not modelled. -/
def undoTo (env : UndoEnv) (w : RepoWorld) (r : Replayer) (c : Cursor) (skip : Bool) : UndoEnd × RepoWorld :=
  let (tx, db) := w.db.makeTransactionId env.txVar t!"undo"
  let w := { w with db }
  match r.eventsSinceCursor c with
  | .error _ => (.panic, w)
  | .ok since =>
    let inverse := inverseEvents since env.now tx
    if inverse.isEmpty then (.nothingToDo, w)
    else if !(skip || confirms env.answer) then (.aborted, w)
    else undoApply env tx w inverse

/-- undo/lib.rs:972-985: the state to which to go back. -/
def undoCursor (env : UndoEnv) (r : Replayer) (interactive : Bool) : Except UndoEnd Cursor :=
  if interactive then
    match selectPastEvent env.draw r env.messages with
    | .selected c => .ok c
    | .left => .error .left
    | .error => .error .error
    | .panic => .error .panic
  else
    match r.advanceCursorByTransaction r.makeDefaultCursor (-1) with
    | .ok c => .ok c
    | .error _ => .error .panic

/-- undo/lib.rs:945-998 `undo`. -/
def undoCommand (env : UndoEnv) (graph : CommitGraph Oid) (w : RepoWorld) (interactive skip : Bool) :
    UndoEnd × RepoWorld :=
  match openRepoDag graph env.checkout.mainBranch w with
  | none => (.error, w)
  | some (r, _) =>
    match undoCursor env r interactive with
    | .error e => (e, w)
    | .ok c => undoTo env w r c skip

end Verif
