import Verif.Model.Smartlog
import Verif.Model.Evolve
import Verif.Model.Reword
import Verif.Model.Snapshot
import Mathlib.Data.List.Lex
import Mathlib.Data.Char

/-!
What is written about the commits in the smartlog: git-branchless-lib/src/core/node_descriptors.rs and the text of
the lines of git-branchless-smartlog/src/lib.rs; and the part of bug reports which is about the repository:
git-branchless/src/commands/bug_report.rs. Colours are not modelled.
-/

namespace Verif

/-- node_descriptors.rs:69-82 `Redactor`. -/
inductive Redactor where
  | disabled
  | enabled (preserved : List Text) (names : AMap Text Text)

namespace Redactor

/-- node_descriptors.rs:86-91 `Redactor::new`. -/
def new (preserved : List Text) : Redactor := .enabled preserved []

/-- node_descriptors.rs:111-117: the name which is shown for the reference with this number. -/
def redactedName (name : Text) (number : Nat) : Text :=
  (categorize name).pfx ++ t!"redacted-ref-" ++ natToText number

/-- node_descriptors.rs:94-121 `redact_ref_name`. -/
def refName : Redactor → Text → Text × Redactor
  | .disabled, name => (name, .disabled)
  | .enabled preserved names, name =>
    if preserved.contains name || !name.contains '/' then (name, .enabled preserved names)
    else
      match names.get? name with
      | some redacted => (redacted, .enabled preserved names)
      | none =>
        let redacted := redactedName name names.length
        (redacted, .enabled preserved (names.insert name redacted))

/-- `char::is_ascii_whitespace`. -/
def isAsciiWhitespace (c : Char) : Bool := c = ' ' || c = '\t' || c = '\n' || c.toNat = 12 || c = '\r'

/-- node_descriptors.rs:124-143 `redact_commit_summary`. -/
def summary : Redactor → Text → Text
  | .disabled, s => s
  | .enabled _ _, s => s.map fun c => if isAsciiWhitespace c then c else 'x'

/-- Several names, one after the other. -/
def refNames : Redactor → List Text → List Text × Redactor
  | r, [] => ([], r)
  | r, n :: ns =>
    let x := r.refName n
    let y := x.2.refNames ns
    (x.1 :: y.1, y.2)

end Redactor

/-! ### the descriptions of a commit -/

/-- The texts of a commit: `get_short_oid`, `get_summary`, `get_message_raw` (as text), and the seconds of
`get_time`. -/
structure CommitText where
  shortOid : Text
  summary : Text
  message : Text
  seconds : Int

/-- What the descriptors read. -/
structure DescribeEnv where
  /-- The commits which exist. -/
  commit : Oid → Option CommitText
  /-- `branchless.commitDescriptors.relativeTime` -/
  showTime : Bool
  /-- `branchless.commitDescriptors.branches` -/
  showBranches : Bool
  /-- `branchless.commitDescriptors.differentialRevision` -/
  showRevision : Bool
  /-- The time, in nanoseconds since 1970. -/
  now : Int
  /-- The name of the reference `HEAD` points to. -/
  headName : Option Text
  /-- `branch_oid_to_names` of the snapshot of the references, in the order in which the sets are iterated. -/
  branchNames : AMap Oid (List Text)

/-- node_descriptors.rs:55-63 `get_short_oid`. -/
def shortOid (env : DescribeEnv) (oid : Oid) : Text :=
  match env.commit oid with
  | some c => c.shortOid
  | none => oid.toText.take 7

/-- node_descriptors.rs:464-495 `describe_time_delta`; the times are in nanoseconds. (The conversions to `i64`
cannot fail for times which fit.) -/
def describeTimeDelta (now previous : Int) : Text :=
  let delta : Int := if previous < now then (now - previous) / 1000000000 else -((previous - now) / 1000000000)
  if delta < 60 then intToText delta ++ t!"s"
  else
    let delta := delta / 60
    if delta < 60 then intToText delta ++ t!"m"
    else
      let delta := delta / 60
      if delta < 24 then intToText delta ++ t!"h"
      else
        let delta := delta / 24
        if delta < 365 then intToText delta ++ t!"d"
        else intToText (delta / 365) ++ t!"y"

/-- node_descriptors.rs:498-519, with git/repo.rs:1736-1743 `to_system_time`, which fails for times before
1970: an error, or nothing, or the text. -/
def describeTime (env : DescribeEnv) (oid : Oid) : Option (Option Text) :=
  if !env.showTime then some none
  else
    match env.commit oid with
    | none => some none
    | some c =>
      if c.seconds < 0 then none else some (some (describeTimeDelta env.now (c.seconds * 1000000000)))

/-- node_descriptors.rs:252-292: why a commit is obsolete. -/
def describeObsolescence (replayer : Replayer) (cursor : Cursor) (oid : Oid) : Option Text :=
  match replayer.latestEvent cursor oid with
  | none => none
  | some (.rewrite ..) =>
    (findRewriteTarget replayer cursor oid).map fun o => t!"(rewritten as " ++ o.toText.take 8 ++ t!")"
  | some (.obsolete ..) => some t!"(manually hidden)"
  | some _ => none

/-- node_descriptors.rs:348-368: what is written for one reference. -/
def describeBranch (arrow : Text) (headName : Option Text) (name : Text) : Text :=
  let icon := if headName = some name then arrow ++ t!" " else []
  match categorize name with
  | .localBranch n => icon ++ (RefCategory.localBranch n).renderSuffix
  | .remoteBranch n => icon ++ t!"remote " ++ (RefCategory.remoteBranch n).renderSuffix
  | .otherRef n => icon ++ t!"ref " ++ (RefCategory.otherRef n).renderSuffix

/-- node_descriptors.rs:320-378: the branches at a commit. The set of redacted names is without duplicates; its
order does not matter, since the texts are sorted. -/
def describeBranches (env : DescribeEnv) (arrow : Text) (r : Redactor) (oid : Oid) : Option Text × Redactor :=
  if !env.showBranches then (none, r)
  else
    let x := r.refNames ((env.branchNames.get? oid).getD [])
    let names := x.1.dedup
    if names.isEmpty then (none, x.2)
    else
      let texts := (names.map (describeBranch arrow env.headName)).insertionSort (· ≤ ·)
      (some (t!"(" ++ joinTexts t!", " texts ++ t!")"), x.2)

/-- The digits of `D[0-9]+`. -/
def isDiffNumber : Text → Bool
  | 'D' :: d :: ds => (d :: ds).all fun c => 48 ≤ c.toNat && c.toNat ≤ 57
  | _ => false

/-- The text after the last slash, if there is one which is not the first character. -/
def afterLastSlash (s : Text) : Option Text :=
  match s.reverse.span (· ≠ '/') with
  | (_, []) => none
  | (_, [_]) => none
  | (tail, _ :: _) => some tail.reverse

/-- node_descriptors.rs:398-413: what the regular expression finds in one line. -/
def diffNumberOfLine (line : Text) : Option Text :=
  match stripPrefix? t!"Differential Revision: " line with
  | none => none
  | some rest =>
    if isDiffNumber rest then some rest
    else
      match afterLastSlash rest with
      | some tail => if isDiffNumber tail then some tail else none
      | none => none

/-- node_descriptors.rs:398-413 `extract_diff_number`: the first match. -/
def extractDiffNumber (message : Text) : Option Text := (splitChar '\n' message).findSome? diffNumberOfLine

/-- node_descriptors.rs:415-441: the number of the revision. -/
def describeRevision (env : DescribeEnv) (r : Redactor) (oid : Oid) : Option Text :=
  match r with
  | .enabled _ _ => none
  | .disabled =>
    if !env.showRevision then none
    else
      match env.commit oid with
      | none => none
      | some c => extractDiffNumber c.message

/-- node_descriptors.rs:217-234: the first line of the message. -/
def describeMessage (env : DescribeEnv) (r : Redactor) (oid : Oid) : Text :=
  r.summary (match env.commit oid with
    | some c => c.summary
    | none => t!"<garbage collected>")

/-- node_descriptors.rs:159-173 `render_node_descriptors`, for the descriptors of the smartlog and of bug
reports (git-branchless-smartlog/src/lib.rs:822-841, bug_report.rs:150-157). -/
def describeNode (env : DescribeEnv) (arrow : Text) (replayer : Replayer) (cursor : Cursor) (r : Redactor)
    (oid : Oid) : Option (Text × Redactor) :=
  match describeTime env oid with
  | none => none
  | some time =>
    let branches := describeBranches env arrow r oid
    some (joinTexts t!" " ([some (shortOid env oid), time, describeObsolescence replayer cursor oid, branches.1,
      describeRevision env branches.2 oid, some (describeMessage env branches.2 oid)].filterMap id), branches.2)

/-! ### the lines of the smartlog -/

/-- formatting.rs:74-150 `Glyphs`, as far as they are used here. -/
structure Glyphs where
  line : Text
  lineWithOffshoot : Text
  verticalEllipsis : Text
  split : Text
  merge : Text
  commitVisible : Text
  commitVisibleHead : Text
  commitObsolete : Text
  commitObsoleteHead : Text
  commitMain : Text
  commitMainHead : Text
  commitMainObsolete : Text
  commitMainObsoleteHead : Text
  commitOmitted : Text
  commitMerge : Text
  branchArrow : Text

/-- formatting.rs:164-190 `Glyphs::text`. -/
def Glyphs.text : Glyphs where
  line := t!"|"
  lineWithOffshoot := t!"|"
  verticalEllipsis := t!":"
  split := t!"\\"
  merge := t!"/"
  commitVisible := t!"o"
  commitVisibleHead := t!"@"
  commitObsolete := t!"x"
  commitObsoleteHead := t!"%"
  commitMain := t!"O"
  commitMainHead := t!"@"
  commitMainObsolete := t!"X"
  commitMainObsoleteHead := t!"%"
  commitOmitted := t!"#"
  commitMerge := t!"&"
  branchArrow := t!">"

/-- git-branchless-smartlog/src/lib.rs:513-522: the symbol of a commit. -/
def Glyphs.commit (g : Glyphs) (isMain isObsolete isHead : Bool) : Text :=
  match isMain, isObsolete, isHead with
  | false, false, false => g.commitVisible
  | false, false, true => g.commitVisibleHead
  | false, true, false => g.commitObsolete
  | false, true, true => g.commitObsoleteHead
  | true, false, false => g.commitMain
  | true, false, true => g.commitMainHead
  | true, true, false => g.commitMainObsolete
  | true, true, true => g.commitMainObsoleteHead

/-- The text of a line at the left. -/
def Glyphs.rail (g : Glyphs) : Rail → Text
  | .line => g.line
  | .ellipsis => g.verticalEllipsis

/-- git-branchless-smartlog/src/lib.rs:461-648, 673-696: the text of a line without the lines at its left.
`describe` describes a commit. -/
def itemText (g : Glyphs) (describe : Redactor → Oid → Option (Text × Redactor)) (r : Redactor) :
    LineItem → Option (Text × Redactor)
  | .omitted n => some (g.commitOmitted ++ t!" " ++ pluralize n t!"omitted commit" t!"omitted commits", r)
  | .ellipsis => some (g.verticalEllipsis, r)
  | .mergeParent oid => (describe r oid).map fun x => (g.commitMerge ++ t!" (merge) " ++ x.1, x.2)
  | .mergeJoin => some (g.lineWithOffshoot ++ g.merge, r)
  | .commit oid isMain isObsolete isHead =>
    (describe r oid).map fun x => (g.commit isMain isObsolete isHead ++ t!" " ++ x.1, x.2)
  | .omittedDescendants n =>
    some (g.commitOmitted ++ t!" " ++ pluralize n t!"omitted descendant commit" t!"omitted descendant commits", r)
  | .mergeChild oid => (describe r oid).map fun x => (g.commitMerge ++ t!" (merge) " ++ x.1, x.2)
  | .split => some (g.lineWithOffshoot ++ g.split, r)
  | .line => some (g.line, r)
  | .empty => some ([], r)

/-- The text of the lines. The commits are described in the order of the lines. -/
def linesText (g : Glyphs) (describe : Redactor → Oid → Option (Text × Redactor)) :
    Redactor → List SmartlogLine → Option (List Text × Redactor)
  | r, [] => some ([], r)
  | r, l :: ls =>
    match itemText g describe r l.2 with
    | none => none
    | some x =>
      match linesText g describe x.2 ls with
      | none => none
      | some y => some (((l.1.flatMap fun rail => g.rail rail ++ t!" ") ++ x.1) :: y.1, y.2)

/-! ### bug reports -/

/-- How a bug report (or the smartlog) can fail. -/
inductive ReportError where
  | panic
  | error
  | render (e : RenderError)

/-- What a bug report reads about the repository. -/
structure ReportEnv where
  /-- The events of the database. -/
  events : List Event
  /-- `repo.get_main_branch()?.get_reference_name()?` -/
  mainName : Text
  /-- The messages of the transactions. -/
  txMessage : TxId → Option Text
  describe : DescribeEnv
  /-- The graph of commits, and what the smartlog shows of it. -/
  dag : Dag
  smartlog : SmartlogEnv
  commits : List Oid
  headOid : Option Oid
  /-- `Debug for Event` -/
  debug : Event → Text

/-- bug_report.rs:30-93 `redact_event`, before formatting. -/
def redactEvent (r : Redactor) : Event → Event × Redactor
  | .refUpdate ts tx name old new message =>
    let x := r.refName name
    (.refUpdate ts tx x.1 old new message, x.2)
  | .snapshot ts tx head oid (some name) =>
    let x := r.refName name
    (.snapshot ts tx head oid (some x.1), x.2)
  | e => (e, r)

/-- bug_report.rs:124-128: the lines for events. -/
def eventLines (debug : Event → Text) : Redactor → List Event → List Text × Redactor
  | r, [] => ([], r)
  | r, e :: es =>
    let x := redactEvent r e
    let y := eventLines debug x.2 es
    ((t!"1. `" ++ debug x.1 ++ t!"`") :: y.1, y.2)

/-- bug_report.rs:106-134: the events of the transaction before the cursor. -/
def cursorEventLines (env : ReportEnv) (replayer : Replayer) (cursor : Cursor) (r : Redactor) :
    Except ReportError (List Text × Redactor) :=
  match replayer.txEventsBeforeCursor cursor with
  | .error _ => .error .panic
  | .ok none => .ok ([t!"There are no previous available events."], r)
  | .ok (some (_, [])) => .error .panic
  | .ok (some (eventId, e :: es)) =>
    let message := (env.txMessage e.txId).getD t!"<failed to query>"
    let header := t!"##### Event ID: " ++ intToText eventId ++ t!", transaction ID: " ++ e.txId.toText ++
      t!" (message: " ++ message ++ t!")"
    let x := eventLines env.debug r (e :: es)
    .ok (header :: [] :: x.1, x.2)

/-- bug_report.rs:136-165: the graph. (The cursor which is given to `make_smartlog_graph` is not used for what
is shown.) -/
def cursorGraphLines (env : ReportEnv) (replayer : Replayer) (cursor : Cursor) (r : Redactor) :
    Except ReportError (List Text × Redactor) :=
  match makeSmartlogGraph env.smartlog env.dag env.commits false with
  | .error _ => .error .panic
  | .ok graph =>
    match renderGraph env.smartlog env.dag graph env.headOid with
    | .error e => .error (.render e)
    | .ok lines =>
      match linesText .text (describeNode env.describe Glyphs.text.branchArrow replayer cursor) r lines with
      | none => .error .error
      | some x => .ok x

/-- bug_report.rs:95-172 `describe_event_cursor`. -/
def describeEventCursor (env : ReportEnv) (replayer : Replayer) (cursor : Cursor) (r : Redactor) :
    Except ReportError (List Text × Redactor) :=
  match cursorEventLines env replayer cursor r with
  | .error e => .error e
  | .ok x =>
    match cursorGraphLines env replayer cursor x.2 with
    | .error e => .error e
    | .ok y => .ok (x.1 ++ t!"```" :: y.1 ++ [t!"```"], y.2)

/-- bug_report.rs:198-214: the loop over the last transactions. -/
def reportLoop (env : ReportEnv) (replayer : Replayer) :
    Redactor → List Nat → Except ReportError (List Text × Redactor)
  | r, [] => .ok ([], r)
  | r, i :: is =>
    match replayer.advanceCursorByTransaction replayer.makeDefaultCursor (-(i : Int)) with
    | .error _ => .error .panic
    | .ok cursor =>
      match describeEventCursor env replayer cursor r with
      | .error e => .error e
      | .ok x =>
        match reportLoop env replayer x.2 is with
        | .error e => .error e
        | .ok y => .ok (x.1 ++ y.1, y.2)

/-- bug_report.rs:196-225, for the given redactor. -/
def reportWith (env : ReportEnv) (r : Redactor) : Except ReportError (Text × Redactor) :=
  match reportLoop env (Replayer.fromEvents env.mainName env.events) r [0, 1, 2, 3, 4] with
  | .error e => .error e
  | .ok x =>
    .ok (t!"\n<details>\n<summary>Show 5 events</summary>\n\n" ++ joinTexts t!"\n" x.1 ++ t!"\n\n</details>", x.2)

/-- bug_report.rs:174-226 `collect_events`. -/
def collectEvents (env : ReportEnv) : Except ReportError Text :=
  (reportWith env (.new [env.mainName])).map Prod.fst

end Verif
