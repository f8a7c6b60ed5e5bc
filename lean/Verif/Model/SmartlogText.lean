import Verif.Model.Describe

/-!
The command `git smartlog`: git-branchless-smartlog/src/lib.rs, 758-903.
-/

namespace Verif

/-- formatting.rs:193-219 `Glyphs::pretty`. -/
def Glyphs.pretty : Glyphs where
  line := t!"┃"
  lineWithOffshoot := t!"┣"
  verticalEllipsis := t!"⋮"
  split := t!"━┓"
  merge := t!"━┛"
  commitVisible := t!"◯"
  commitVisibleHead := t!"●"
  commitObsolete := t!"✕"
  commitObsoleteHead := t!"⦻"
  commitMain := t!"◇"
  commitMainHead := t!"◆"
  commitMainObsolete := t!"✕"
  commitMainObsoleteHead := t!"❖"
  commitOmitted := t!"◌"
  commitMerge := t!"↓"
  branchArrow := t!"ᐅ"

/-- formatting.rs:223-228 `reverse_order`. -/
def Glyphs.reverseOrder (g : Glyphs) (reverse : Bool) : Glyphs :=
  if reverse then { g with split := g.merge, merge := g.split } else g

/-- What the command reads. -/
structure SmartlogCommandEnv where
  /-- The events of the database. -/
  events : List Event
  /-- The main branch. -/
  main : Replayer.RepoMain
  /-- `get_references_snapshot` -/
  refs : Replayer.RefsSnapshot
  /-- The graph of commits, after `sync`. -/
  graph : CommitGraph Oid
  commit : Oid → Option CommitText
  showTime : Bool
  showBranches : Bool
  showRevision : Bool
  /-- The time, in nanoseconds since 1970. -/
  now : Int
  /-- `get_head_info` -/
  headName : Option Text
  smartlog : SmartlogEnv
  /-- The value of the revset, or none if it has none. -/
  resolve : Dag → Option (List Oid)

/-- git-branchless-smartlog/src/lib.rs:780-787: the cursor for `--event-id`. -/
def smartlogCursor (rep : Replayer) : Option Int → Cursor
  | none => rep.makeDefaultCursor
  | some i => if i < 0 then rep.advanceCursor rep.makeDefaultCursor i else rep.makeCursor i

/-- git-branchless-smartlog/src/lib.rs:779-793: the references. -/
def smartlogRefs (env : SmartlogCommandEnv) (rep : Replayer) : Option Int → Except Panic Replayer.RefsSnapshot
  | none => .ok env.refs
  | some i => rep.referencesSnapshot env.main (smartlogCursor rep (some i))

/-- git-branchless-smartlog/src/lib.rs:795-830: the references and the lines of the graph; none if the revset has
no value. -/
def smartlogLines (env : SmartlogCommandEnv) (rep : Replayer) (eventId : Option Int) (exact : Bool) :
    Except ReportError (Option (Replayer.RefsSnapshot × List SmartlogLine)) :=
  match smartlogRefs env rep eventId with
  | .error _ => .error .panic
  | .ok refs =>
    let dag := Dag.openWithoutSyncing env.graph rep (smartlogCursor rep eventId) refs
    match env.resolve dag with
    | none => .ok none
    | some commits =>
      match makeSmartlogGraph env.smartlog dag commits exact with
      | .error _ => .error .panic
      | .ok graph =>
        match renderGraph env.smartlog dag graph refs.headOid with
        | .error e => .error (.render e)
        | .ok lines => .ok (some (refs, lines))

/-- git-branchless-smartlog/src/lib.rs:832-862: what the descriptors read. -/
def smartlogDescribe (env : SmartlogCommandEnv) (refs : Replayer.RefsSnapshot) : DescribeEnv where
  commit := env.commit
  showTime := env.showTime
  showBranches := env.showBranches
  showRevision := env.showRevision
  now := env.now
  headName := env.headName
  branchNames := refs.branchOidToNames

/-- git-branchless-smartlog/src/lib.rs:758-862 `smartlog`: the text of the graph; none if the revset has no
value. -/
def smartlogCommand (env : SmartlogCommandEnv) (g : Glyphs) (eventId : Option Int) (reverse exact : Bool) :
    Except ReportError (Option (List Text)) :=
  let rep := Replayer.fromEvents env.main.mainBranchName env.events
  match smartlogLines env rep eventId exact with
  | .error e => .error e
  | .ok none => .ok none
  | .ok (some (refs, lines)) =>
    match linesText (g.reverseOrder reverse) (describeNode (smartlogDescribe env refs)
        (g.reverseOrder reverse).branchArrow rep rep.makeDefaultCursor) .disabled lines with
    | none => .error .error
    | some x => .ok (some (if reverse then x.1.reverse else x.1))

/-- git-branchless-smartlog/src/lib.rs:864-884: the commits which the hint at the end counts. -/
def abandonedInGraph (dag : Dag) (rep : Replayer) (cursor : Cursor) (graph : SmartlogGraph) : List Oid :=
  let rewritten := (graph.filter fun e => e.2.isObsolete && (findRewriteTarget rep cursor e.1).isSome).map Prod.fst
  CommitGraph.diff (dag.graph.children rewritten) dag.obsoleteCommits

end Verif
