import Verif.Model.Text

/-!
Model of the event log database: git-branchless-lib/src/core/eventlog.rs, lines 25-721.
-/

namespace Verif

/-- git-branchless-lib/src/core/eventlog.rs:56-63 `EventTransactionId`. -/
inductive TxId where
  | id (n : Int)
  | suppressed
deriving DecidableEq, Repr

/-- eventlog.rs:65-72 `Display for EventTransactionId`. -/
def TxId.toText : TxId → Text
  | .id n => intToText n
  | .suppressed => t!"SUPPRESSED"

/-- eventlog.rs:74-85 `FromStr for EventTransactionId`. -/
def TxId.parse (s : Text) : Option TxId :=
  if s = t!"SUPPRESSED" then some .suppressed
  else (parseIsize s).map .id

/-- Seconds since the epoch. `f64` in the code; never computed with here, so any type would do. -/
abbrev Timestamp := Int

/-- eventlog.rs:87-201 `Event`. -/
inductive Event where
  | rewrite (timestamp : Timestamp) (tx : TxId) (old new : MaybeZero)
  | refUpdate (timestamp : Timestamp) (tx : TxId) (refName : Text) (old new : MaybeZero)
      (message : Option Text)
  | commit (timestamp : Timestamp) (tx : TxId) (oid : Oid)
  | obsolete (timestamp : Timestamp) (tx : TxId) (oid : Oid)
  | unobsolete (timestamp : Timestamp) (tx : TxId) (oid : Oid)
  | snapshot (timestamp : Timestamp) (tx : TxId) (head : MaybeZero) (oid : Oid)
      (refName : Option Text)
deriving DecidableEq, Repr

/-- eventlog.rs:217-227 `Event::get_event_tx_id`. -/
def Event.txId : Event → TxId
  | .rewrite _ tx _ _ => tx
  | .refUpdate _ tx _ _ _ _ => tx
  | .commit _ tx _ => tx
  | .obsolete _ tx _ => tx
  | .unobsolete _ tx _ => tx
  | .snapshot _ tx _ _ _ => tx

/-- eventlog.rs:28-38 `Row`. -/
structure Row where
  timestamp : Timestamp
  type_ : Text
  txId : Int
  ref1 : Option Text
  ref2 : Option Text
  refName : Option Text
  message : Option Text
deriving DecidableEq, Repr

/-- eventlog.rs:230-352 `TryFrom<Event> for Row`; `none` is `Err(())`. -/
def Event.toRow? : Event → Option Row
  | .rewrite _ .suppressed _ _ => none
  | .refUpdate _ .suppressed _ _ _ _ => none
  | .commit _ .suppressed _ => none
  | .obsolete _ .suppressed _ => none
  | .unobsolete _ .suppressed _ => none
  | .snapshot _ .suppressed _ _ _ => none
  | .rewrite ts (.id tx) old new =>
    some { timestamp := ts, txId := tx, type_ := t!"rewrite", ref1 := some old.toText,
           ref2 := some new.toText, refName := none, message := none }
  | .refUpdate ts (.id tx) name old new msg =>
    some { timestamp := ts, txId := tx, type_ := t!"ref-move", ref1 := some old.toText,
           ref2 := some new.toText, refName := some name, message := msg }
  | .commit ts (.id tx) oid =>
    some { timestamp := ts, txId := tx, type_ := t!"commit", ref1 := some oid.toText,
           ref2 := none, refName := none, message := none }
  | .obsolete ts (.id tx) oid =>
    some { timestamp := ts, txId := tx, type_ := t!"hide", ref1 := some oid.toText,
           ref2 := none, refName := none, message := none }
  | .unobsolete ts (.id tx) oid =>
    some { timestamp := ts, txId := tx, type_ := t!"unhide", ref1 := some oid.toText,
           ref2 := none, refName := none, message := none }
  | .snapshot ts (.id tx) head oid name =>
    some { timestamp := ts, txId := tx, type_ := t!"snapshot", ref1 := some head.toText,
           ref2 := some oid.toText, refName := name, message := none }

/-- eventlog.rs:367-380 the closure `get_oid`. -/
def getOid (r : Option Text) : Option MaybeZero :=
  match r with
  | some s => MaybeZero.parse s
  | none => none

/-- eventlog.rs:354-451 `try_from_row_helper`, 453-465 `TryFrom<Row> for Event`; `none` is any of
the errors (their text is not modelled). -/
def Row.toEvent? (row : Row) : Option Event :=
  let tx := TxId.id row.txId
  if row.type_ = t!"rewrite" then do
    let old ← getOid row.ref1
    let new ← getOid row.ref2
    return .rewrite row.timestamp tx old new
  else if row.type_ = t!"ref-move" then do
    let name ← row.refName
    let ref1 ← row.ref1
    let ref2 ← row.ref2
    let old ← MaybeZero.parse ref1
    let new ← MaybeZero.parse ref2
    return .refUpdate row.timestamp tx name old new row.message
  else if row.type_ = t!"commit" then do
    let oid ← (← getOid row.ref1).toNonZero?
    return .commit row.timestamp tx oid
  else if row.type_ = t!"hide" then do
    let oid ← (← getOid row.ref1).toNonZero?
    return .obsolete row.timestamp tx oid
  else if row.type_ = t!"unhide" then do
    let oid ← (← getOid row.ref1).toNonZero?
    return .unobsolete row.timestamp tx oid
  else if row.type_ = t!"snapshot" then do
    let head ← getOid row.ref1
    let oid ← (← getOid row.ref2).toNonZero?
    return .snapshot row.timestamp tx head oid row.refName
  else none

/-- The SQLite database (eventlog.rs:478-515 `init_tables`): the committed `event_log` table in
`rowid` order, the rows inserted by the open transaction (if any), the `event_transactions` table,
and SQLite's `sqlite_sequence` counter for its AUTOINCREMENT key.
`rowid`s themselves are not modelled: nothing deletes from `event_log`, so insertion order is
`rowid` order. -/
structure Db where
  rows : List Row := []
  pending : Option (List Row) := none
  txs : List (Int × Text) := []
  seq : Int := 0

/-- The SQL statements which the event log issues for `event_log`. -/
inductive Stmt where
  | begin
  | insert (row : Row)
  | commit
deriving DecidableEq

/-- SQLite's documented effect of one statement. Outside of a transaction an `INSERT` commits at
once (autocommit). -/
def Db.exec (db : Db) : Stmt → Db
  | .begin => { db with pending := some [] }
  | .insert row => match db.pending with
    | some p => { db with pending := some (p ++ [row]) }
    | none => { db with rows := db.rows ++ [row] }
  | .commit => match db.pending with
    | some p => { db with rows := db.rows ++ p, pending := none }
    | none => db

/-- The process dies, or an error makes the `Transaction` value be dropped (rollback): an open
transaction is lost. -/
def Db.crash (db : Db) : Db := { db with pending := none }

/-- eventlog.rs:530-577 `add_events`: the statements issued, in order. Suppressed events are
skipped (eventlog.rs:533-536). -/
def addEventsStmts (events : List Event) : List Stmt :=
  .begin :: (events.filterMap fun e => e.toRow?.map Stmt.insert) ++ [.commit]

/-- `add_events` interrupted after `k` statements (by a crash, or by an error of statement
`k + 1`); if `k` is at least the number of statements, it is not interrupted. -/
def Db.addEventsUpTo (db : Db) (events : List Event) (k : Nat) : Db :=
  (((addEventsStmts events).take k).foldl Db.exec db).crash

/-- eventlog.rs:530-577 `add_events` running to completion. -/
def Db.addEvents (db : Db) (events : List Event) : Db :=
  (addEventsStmts events).foldl Db.exec db

/-- eventlog.rs:584-615 `get_events`: all rows in `rowid` order, converted; one bad row fails the
whole call. Reads see committed rows only. -/
def Db.getEvents (db : Db) : Option (List Event) :=
  db.rows.mapM Row.toEvent?

/-- Largest key of the `event_transactions` table, at least 0. -/
def maxKey (l : List (Int × Text)) : Int := l.foldl (fun m e => max m e.1) 0

/-- eventlog.rs:618-656 `make_transaction_id_inner`. `env` is the value of the environment
variable `BRANCHLESS_TRANSACTION_ID` (if set and valid Unicode). SQLite's AUTOINCREMENT chooses
one more than the larger of the largest existing key and the largest key ever used.
(Running out of 64-bit keys is not modelled.) -/
def Db.makeTransactionId (db : Db) (env : Option Text) (message : Text) : TxId × Db :=
  match env.bind TxId.parse with
  | some tx => (tx, db)
  | none =>
    let key := max db.seq (maxKey db.txs) + 1
    (.id key, { db with txs := db.txs ++ [(key, message)], seq := key })

/-- eventlog.rs:669-691 `get_transaction_message`; `none` is an error. -/
def Db.getTransactionMessage (db : Db) : TxId → Option Text
  | .suppressed => none
  | .id n => (db.txs.find? fun e => e.1 = n).map Prod.snd

/-- eventlog.rs:699-701 `is_gc_ref`. -/
def isGcRef (name : Text) : Bool := (t!"refs/branchless/").isPrefixOf name

/-- eventlog.rs:706-721 `should_ignore_ref_updates`. -/
def shouldIgnoreRefUpdates (name : Text) : Bool :=
  isGcRef name ||
    name == t!"ORIG_HEAD" || name == t!"CHERRY_PICK" || name == t!"REBASE_HEAD" ||
    name == t!"CHERRY_PICK_HEAD" || name == t!"AUTO_MERGE" || name == t!"FETCH_HEAD"

end Verif
