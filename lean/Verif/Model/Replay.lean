import Verif.Model.EventLog
import Verif.Model.Reference

/-!
Model of the event replayer: git-branchless-lib/src/core/eventlog.rs, lines 723-1397.
-/

namespace Verif

/-- eventlog.rs:723-727 `EventClassification`. -/
inductive Classification where
  | show
  | hide
deriving DecidableEq, Repr

/-- eventlog.rs:733-747 `CommitActivityStatus`. -/
inductive ActivityStatus where
  | active
  | inactive
  | obsolete
deriving DecidableEq, Repr

/-- eventlog.rs:749-754 `EventInfo`. -/
structure EventInfo where
  id : Int
  event : Event
  cls : Classification
deriving DecidableEq, Repr

/-- eventlog.rs:766-769 `EventCursor`. -/
structure Cursor where
  eventId : Int
deriving DecidableEq, Repr

/-- eventlog.rs:772-791 `EventReplayer`. -/
structure Replayer where
  idCounter : Int
  events : List Event
  mainBranch : Text
  commitHistory : AMap Oid (List EventInfo)
  refLocations : AMap Text Oid

/-- A Rust panic (failed `unwrap`, out-of-range index). -/
inductive Panic where
  | panic
deriving DecidableEq, Repr

namespace Replayer

/-- eventlog.rs:805-813 `EventReplayer::new`. -/
def new (mainBranch : Text) : Replayer :=
  { idCounter := 0, events := [], mainBranch, commitHistory := [], refLocations := [] }

/-- `commit_history.entry(oid).or_default().push(info)` (eventlog.rs:873-880 and others). -/
def pushHistory (h : AMap Oid (List EventInfo)) (oid : Oid) (info : EventInfo) :
    AMap Oid (List EventInfo) :=
  h.insert oid ((h.get? oid).getD [] ++ [info])

/-- eventlog.rs:960-985, first half of `fix_event_git_v2_31`: fill in the old position of a
deletion which was reported without one. -/
def fixOldOid (r : Replayer) : Event → Event
  | .refUpdate ts tx name .zero .zero msg =>
    .refUpdate ts tx name (MaybeZero.ofOption (r.refLocations.get? name)) .zero msg
  | e => e

/-- eventlog.rs:958-1014 `fix_event_git_v2_31`. -/
def fixEvent (r : Replayer) (event : Event) : Option Event :=
  match r.fixOldOid event, r.events.getLast? with
  | .refUpdate ts tx name old .zero msg, some (.refUpdate _ _ lastName _ .zero lastMsg) =>
    if name = lastName ∧ msg = lastMsg then none
    else some (.refUpdate ts tx name old .zero msg)
  | e, _ => some e

/-- eventlog.rs:862-955, the part of `process_event` after the event has been accepted. -/
def record (r : Replayer) (event : Event) : Replayer :=
  let id := r.idCounter
  let r := { r with events := r.events ++ [event], idCounter := r.idCounter + 1 }
  match event with
  | .rewrite _ _ old new =>
    let h := match old with
      | .nonZero o => pushHistory r.commitHistory o ⟨id, event, .hide⟩
      | .zero => r.commitHistory
    let h := match new with
      | .nonZero o => pushHistory h o ⟨id, event, .show⟩
      | .zero => h
    { r with commitHistory := h }
  | .refUpdate _ _ name _ new _ =>
    match new with
    | .nonZero o => { r with refLocations := r.refLocations.insert name o }
    | .zero => { r with refLocations := r.refLocations.erase name }
  | .commit _ _ o => { r with commitHistory := pushHistory r.commitHistory o ⟨id, event, .show⟩ }
  | .obsolete _ _ o => { r with commitHistory := pushHistory r.commitHistory o ⟨id, event, .hide⟩ }
  | .unobsolete _ _ o => { r with commitHistory := pushHistory r.commitHistory o ⟨id, event, .show⟩ }
  | .snapshot .. => r

/-- eventlog.rs:845-956 `process_event`. -/
def processEvent (r : Replayer) (event : Event) : Replayer :=
  let ignored := match event with
    | .refUpdate _ _ name _ _ _ => shouldIgnoreRefUpdates name
    | _ => false
  if ignored then r
  else match r.fixEvent event with
    | none => r
    | some e => r.record e

/-- eventlog.rs:822-835 `from_event_log_db` (given the events of the database). -/
def fromEvents (mainBranch : Text) (events : List Event) : Replayer :=
  events.foldl processEvent (new mainBranch)

/-- eventlog.rs:1016-1024 `get_cursor_commit_history`. -/
def cursorCommitHistory (r : Replayer) (c : Cursor) (oid : Oid) : List EventInfo :=
  match r.commitHistory.get? oid with
  | none => []
  | some history => history.filter fun i => i.id < c.eventId

/-- eventlog.rs:1028-1049 `get_cursor_commit_activity_status`. -/
def activityStatus (r : Replayer) (c : Cursor) (oid : Oid) : ActivityStatus :=
  match (r.cursorCommitHistory c oid).getLast? with
  | some ⟨_, _, .show⟩ => .active
  | some ⟨_, _, .hide⟩ => .obsolete
  | none => .inactive

/-- eventlog.rs:1059-1067 `get_cursor_commit_latest_event`. -/
def latestEvent (r : Replayer) (c : Cursor) (oid : Oid) : Option Event :=
  ((r.cursorCommitHistory c oid).getLast?).map EventInfo.event

/-- eventlog.rs:1071-1082 `get_cursor_oids` (a set; here the list of its elements). -/
def cursorOids (r : Replayer) (c : Cursor) : List Oid :=
  r.commitHistory.filterMap fun (oid, history) =>
    if history.any fun i => i.id < c.eventId then some oid else none

/-- eventlog.rs:1093-1102 `make_cursor`. -/
def makeCursor (r : Replayer) (eventId : Int) : Cursor :=
  let eventId := if eventId < 0 then 0 else eventId
  let numEvents : Int := r.events.length
  let eventId := if eventId > numEvents then numEvents else eventId
  ⟨eventId⟩

/-- eventlog.rs:1085-1087 `make_default_cursor`. -/
def makeDefaultCursor (r : Replayer) : Cursor := r.makeCursor r.events.length

/-- eventlog.rs:1110-1112 `advance_cursor`. (`isize` overflow is not modelled.) -/
def advanceCursor (r : Replayer) (c : Cursor) (numEvents : Int) : Cursor :=
  r.makeCursor (c.eventId + numEvents)

/-- `usize::try_from(i).unwrap()` as used at eventlog.rs:1197, 1236, 1297, 1362, 1382, 1394. -/
def toUsize (i : Int) : Except Panic Nat :=
  if i < 0 then .error .panic else .ok i.toNat

/-- eventlog.rs:1358-1365 `get_event_before_cursor`. -/
def eventBeforeCursor (r : Replayer) (c : Cursor) : Except Panic (Option (Int × Event)) :=
  if c.eventId = 0 then .ok none
  else match toUsize (c.eventId - 1) with
    | .error p => .error p
    | .ok i => match r.events[i]? with
      | some e => .ok (some (c.eventId, e))
      | none => .error .panic

/-- eventlog.rs:1114-1117 `get_event_tx_id_before_cursor`. -/
def txIdBeforeCursor (r : Replayer) (c : Cursor) : Except Panic (Option TxId) :=
  match r.eventBeforeCursor c with
  | .error p => .error p
  | .ok o => .ok (o.map fun x => x.2.txId)

theorem advance_measure_forward (r : Replayer) (c : Cursor) (h : c ≠ r.advanceCursor c 1) :
    ((r.events.length : Int) - (r.advanceCursor c 1).eventId).natAbs
      < ((r.events.length : Int) - c.eventId).natAbs := by
  obtain ⟨i⟩ := c
  simp only [advanceCursor, makeCursor, ne_eq, Cursor.mk.injEq] at h ⊢
  split at h <;> split at h <;> (try split) <;> omega

theorem advance_measure_backward (r : Replayer) (c : Cursor) (h : c ≠ r.advanceCursor c (-1)) :
    (r.advanceCursor c (-1)).eventId.natAbs < c.eventId.natAbs := by
  obtain ⟨i⟩ := c
  simp only [advanceCursor, makeCursor, ne_eq, Cursor.mk.injEq] at h ⊢
  split at h <;> split at h <;> (try split) <;> omega

/-- eventlog.rs:1122-1134 `snap_to_transaction_boundary`. -/
def snapToTransactionBoundary (r : Replayer) (c : Cursor) : Except Panic Cursor :=
  let next := r.advanceCursor c 1
  if h : c = next then .ok c
  else match r.txIdBeforeCursor c, r.txIdBeforeCursor next with
    | .ok currentTx, .ok nextTx =>
      if currentTx = nextTx then snapToTransactionBoundary r next else .ok c
    | _, _ => .error .panic
termination_by ((r.events.length : Int) - c.eventId).natAbs
decreasing_by exact advance_measure_forward r c h

/-- eventlog.rs:1136-1172 `advance_cursor_by_transaction_helper`. -/
def advanceCursorByTransactionHelper (r : Replayer) (c : Cursor) (num : Int) :
    Except Panic Cursor :=
  if num = 0 then r.snapToTransactionBoundary c
  else if 0 < num then
    let next := r.advanceCursor c 1
    if h : c = next then .ok next
    else match r.txIdBeforeCursor c, r.txIdBeforeCursor next with
      | .ok currentTx, .ok nextTx =>
        advanceCursorByTransactionHelper r next (if currentTx = nextTx then num else num - 1)
      | _, _ => .error .panic
  else
    let prev := r.advanceCursor c (-1)
    if h : c = prev then .ok prev
    else match r.txIdBeforeCursor c, r.txIdBeforeCursor prev with
      | .ok currentTx, .ok prevTx =>
        advanceCursorByTransactionHelper r prev (if currentTx = prevTx then num else num + 1)
      | _, _ => .error .panic
termination_by
  if num = 0 then 0
  else if 0 < num then ((r.events.length : Int) - c.eventId).natAbs + 1
  else c.eventId.natAbs + 1
decreasing_by
  · have := advance_measure_forward r c h
    split <;> (try split) <;> (try split) <;> (try split) <;> omega
  · have := advance_measure_backward r c h
    split <;> (try split) <;> (try split) <;> (try split) <;> omega

/-- eventlog.rs:1179-1190 `advance_cursor_by_transaction`. -/
def advanceCursorByTransaction (r : Replayer) (c : Cursor) (num : Int) : Except Panic Cursor :=
  if r.events.isEmpty then .ok c
  else match r.snapToTransactionBoundary c with
    | .error p => .error p
    | .ok c => r.advanceCursorByTransactionHelper c num

/-- `&self.events[0..cursor_event_id]` (eventlog.rs:1197-1198, 1236-1237, 1297-1298). -/
def eventsUpTo (r : Replayer) (c : Cursor) : Except Panic (List Event) :=
  match toUsize c.eventId with
  | .error p => .error p
  | .ok n => if n ≤ r.events.length then .ok (r.events.take n) else .error .panic

/-- The closure at eventlog.rs:1201-1228. -/
def headOidOf : Event → Option Oid
  | .refUpdate _ _ name _ new _ =>
    match new with
    | .nonZero o => if name = t!"HEAD" then some o else none
    | .zero => none
  | .commit _ _ o => some o
  | .snapshot _ _ head _ _ => match head with
    | .nonZero o => some o
    | .zero => none
  | .rewrite .. => none
  | .obsolete .. => none
  | .unobsolete .. => none

/-- eventlog.rs:1196-1229 `get_cursor_head_oid`. -/
def cursorHeadOid (r : Replayer) (c : Cursor) : Except Panic (Option Oid) :=
  (r.eventsUpTo c).map fun es => es.reverse.findSome? headOidOf

/-- The closure at eventlog.rs:1240-1247. -/
def branchOidOf (refName : Text) : Event → Option Oid
  | .refUpdate _ _ name _ (.nonZero o) _ => if name = refName then some o else none
  | _ => none

/-- eventlog.rs:1231-1249 `get_cursor_branch_oid`. -/
def cursorBranchOid (r : Replayer) (c : Cursor) (refName : Text) : Except Panic (Option Oid) :=
  (r.eventsUpTo c).map fun es => es.reverse.findSome? (branchOidOf refName)

/-- The current state of the repository as far as the replayer asks for it:
`repo.get_main_branch()?.get_reference_name()?` and `repo.get_main_branch_oid()`
(errors of these calls are not modelled). -/
structure RepoMain where
  mainBranchName : Text
  mainBranchOid : Oid

/-- eventlog.rs:1264-1279 `get_cursor_main_branch_oid`. -/
def cursorMainBranchOid (r : Replayer) (c : Cursor) (repo : RepoMain) : Except Panic Oid :=
  (r.cursorBranchOid c repo.mainBranchName).map fun o => o.getD repo.mainBranchOid

/-- eventlog.rs:1298-1316, one iteration. -/
def stepRefMap (m : AMap Text Oid) : Event → AMap Text Oid
  | .refUpdate _ _ name _ (.nonZero o) _ => m.insert name o
  | .refUpdate _ _ name _ .zero _ => m.erase name
  | _ => m

/-- `result.entry(oid).or_default().insert(name)`. -/
def addName (m : AMap Oid (List Text)) (oid : Oid) (name : Text) : AMap Oid (List Text) :=
  let names := (m.get? oid).getD []
  m.insert oid (if name ∈ names then names else names ++ [name])

/-- eventlog.rs:1291-1336 `get_cursor_branch_oid_to_names`. The iteration order over the map is
that of the model's association list; the result is a map of sets, which does not depend on it. -/
def cursorBranchOidToNames (r : Replayer) (c : Cursor) (repo : RepoMain) :
    Except Panic (AMap Oid (List Text)) :=
  match r.eventsUpTo c, r.cursorMainBranchOid c repo with
  | .ok es, .ok mainOid =>
    let refMap := es.foldl stepRefMap []
    let result := refMap.foldl (fun m (name, oid) =>
      if (categorize name).isLocalBranch then addName m oid name else m) []
    .ok (addName result mainOid r.mainBranch)
  | _, _ => .error .panic

/-- git-branchless-lib/src/core/repo_ext.rs:15-26 `RepoReferencesSnapshot`. -/
structure RefsSnapshot where
  headOid : Option Oid
  mainBranchOid : Oid
  branchOidToNames : AMap Oid (List Text)

/-- eventlog.rs:1339-1352 `get_references_snapshot`. -/
def referencesSnapshot (r : Replayer) (repo : RepoMain) (c : Cursor) : Except Panic RefsSnapshot :=
  match r.cursorHeadOid c, r.cursorMainBranchOid c repo, r.cursorBranchOidToNames c repo with
  | .ok headOid, .ok mainBranchOid, .ok branchOidToNames =>
    .ok { headOid, mainBranchOid, branchOidToNames }
  | _, _, _ => .error .panic

/-- eventlog.rs:1373-1387 `get_tx_events_before_cursor`. -/
def txEventsBeforeCursor (r : Replayer) (c : Cursor) :
    Except Panic (Option (Int × List Event)) :=
  match r.advanceCursorByTransaction c (-1) with
  | .error p => .error p
  | .ok prev =>
    match toUsize prev.eventId, toUsize c.eventId with
    | .ok lo, .ok hi =>
      if lo ≤ hi ∧ hi ≤ r.events.length then
        match (r.events.take hi).drop lo with
        | [] => .ok none
        | es => .ok (some (prev.eventId + 1, es))
      else .error .panic
    | _, _ => .error .panic

/-- eventlog.rs:1393-1396 `get_events_since_cursor`. -/
def eventsSinceCursor (r : Replayer) (c : Cursor) : Except Panic (List Event) :=
  match toUsize c.eventId with
  | .error p => .error p
  | .ok n => if n ≤ r.events.length then .ok (r.events.drop n) else .error .panic

end Replayer
end Verif
