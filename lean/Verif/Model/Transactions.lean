import Verif.Model.EventLog
import Mathlib.Logic.Function.Basic

/-!
How the processes of a command share a transaction of the event log: the environment variable
`BRANCHLESS_TRANSACTION_ID` (git-branchless-lib/src/core/eventlog.rs:26, git-branchless-lib/src/git/run.rs,
git-branchless/src/commands/wrap.rs, git-branchless-test/src/lib.rs:2641-2646).

Simplifications: programs which are not git-branchless (git, shells, hooks of the user) hand on the environment as they
got it, and their processes are not told apart from the one which started them unless they run something. That a
process ends is no step: it does nothing any more. Calls of `add_events` are not interrupted (see C02 for this).
-/

namespace Verif

/-- A process. -/
structure TxProc where
  /-- The one which started it, by its number; none if it is the user's shell. -/
  parent : Option Nat
  /-- The repository in which it works. -/
  repo : Nat
  /-- The value of the environment variable when it was started. (`GitRunInfo::env` is the environment at this
  moment, too: git-branchless-invoke/src/lib.rs:106-110.) -/
  var : Option Text
  /-- The ids which it got by calling `make_transaction_id`. -/
  ids : List TxId := []
deriving DecidableEq

/-- All processes so far, and the event logs of the repositories. -/
structure TxWorld where
  dbs : Nat → Db
  procs : List TxProc

/-- Which id a process which is started is given. -/
inductive PassTx where
  /-- `Some(event_tx_id)` with one of its ids. -/
  | own (tx : TxId)
  /-- `None`: the environment stays as it is. -/
  | keep
  /-- `EventTransactionId::Suppressed` (git-branchless-test/src/lib.rs:1215). -/
  | suppress
deriving DecidableEq

/-- What happens. -/
inductive TxAction where
  /-- The user runs something. -/
  | start (repo : Nat) (var : Option Text)
  /-- A process calls `make_transaction_id`. -/
  | makeId (p : Nat) (message : Text)
  /-- A process calls `add_events`, with an id which it has. -/
  | record (p : Nat) (events : List Event)
  /-- A process runs git, a hook or a test. -/
  | spawn (p : Nat) (repo : Nat) (pass : PassTx)

/-- run.rs:140-144, 220-223, 320-324, 436-437, wrap.rs:27-31, git-branchless-test/src/lib.rs:2644: the variable for a
process which is started. None if the process does not have the id. -/
def TxProc.childVar (p : TxProc) : PassTx → Option (Option Text)
  | .own tx => if tx ∈ p.ids then some (some tx.toText) else none
  | .keep => some p.var
  | .suppress => some (some TxId.suppressed.toText)

/-- One step. -/
def TxWorld.step (w : TxWorld) : TxAction → Option TxWorld
  | .start repo var => some { w with procs := w.procs ++ [{ parent := none, repo, var }] }
  | .makeId p message =>
    match w.procs[p]? with
    | none => none
    | some q =>
      let (tx, db) := (w.dbs q.repo).makeTransactionId q.var message
      some { dbs := Function.update w.dbs q.repo db, procs := w.procs.set p { q with ids := tx :: q.ids } }
  | .record p events =>
    match w.procs[p]? with
    | none => none
    | some q =>
      if events.all (fun e => e.txId ∈ q.ids) then
        some { w with dbs := Function.update w.dbs q.repo ((w.dbs q.repo).addEvents events) }
      else none
  | .spawn p repo pass =>
    match w.procs[p]? with
    | none => none
    | some q =>
      match q.childVar pass with
      | none => none
      | some var => some { w with procs := w.procs ++ [{ parent := some p, repo, var }] }

/-- Before anything happened. -/
def TxWorld.empty : TxWorld := { dbs := fun _ => {}, procs := [] }

/-- Several steps. -/
def TxWorld.run (w : TxWorld) (actions : List TxAction) : Option TxWorld := actions.foldlM TxWorld.step w

/-- The events in the log of a repository. -/
def TxWorld.log (w : TxWorld) (repo : Nat) : List Event := ((w.dbs repo).getEvents).getD []

end Verif
