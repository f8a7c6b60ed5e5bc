import Verif.Model.Restack
import Verif.Model.Navigate

/-!
The command `move`: git-branchless-move/src/lib.rs. What the arguments stand for (C38) is given; the hints
are not modelled.
-/

namespace Verif

/-- The arguments, with the commits for which they stand. -/
structure MoveArgs where
  /-- `--source` -/
  sources : List Oid
  /-- `--base` -/
  bases : List Oid
  /-- `--exact` -/
  exacts : List Oid
  /-- One of them was given (even if it stands for no commit). -/
  provided : Bool
  /-- `--dest`, if given. -/
  dest : Option (List Oid)
  head : Option Oid
  fixup : Bool
  insert : Bool

/-- What the command depends on. -/
structure MoveCmdEnv where
  /-- For `commit_set_to_vec` and `sorted_commit_set`. -/
  nav : NavEnv
  /-- dag.rs `set_first`: some member of the set, if there is one. Which one depends on how the set was
  computed. -/
  first : List Oid → Option Oid
  /-- What the planner reads from the repository, see `PlanEnv`. -/
  patchId : Oid → Nat
  touchedPaths : Oid → Nat
  forceRewritePublicCommits : Bool
  detectDuplicateCommitsViaPatchId : Bool
  /-- What the execution of the plan depends on. -/
  exec : ExecEnv
  finish : List (Oid × CommitData) → FinishEnv
  disk : OnDiskEnv
  options : ExecOptions

/-- The environment of the planner. No commits are replaced. -/
def MoveCmdEnv.planEnv (env : MoveCmdEnv) (d : Dag) : PlanEnv :=
  ⟨d, env.patchId, env.touchedPaths, sortedCommitSet env.nav d, fun _ => []⟩

/-- Why nothing is done, all with exit code 1. -/
inductive MoveRefusal where
  /-- lib.rs:89-94: there is no `--dest` and no HEAD. -/
  | noDest
  /-- lib.rs:204-209: there are no sources and no HEAD. -/
  | noSource
  /-- lib.rs:142-151 -/
  | exactRoots (n : Nat)
  /-- lib.rs:154-164 -/
  | exactParents (n : Nat)
  /-- lib.rs:186-195 -/
  | destCount (n : Nat)
  /-- lib.rs:343-366 -/
  | severalDestinations (root : Oid)
  /-- lib.rs:423-434 -/
  | noLineage (a b : Oid)
  /-- lib.rs:447-453 -/
  | severalHeads
  /-- Refused by the planner. -/
  | planner (e : BuildRebasePlanError)
deriving DecidableEq

/-- lib.rs:41-62 `resolve_base_commit`. -/
def resolveBaseCommit (env : MoveCmdEnv) (d : Dag) (mergeBase : Option Oid) (oid : Oid) : Oid :=
  let bases := match mergeBase with
    | some m =>
      let range := d.graph.range [m] [oid]
      CommitGraph.inter (d.graph.children (d.graph.roots range)) range
    | none => d.graph.roots (d.graph.ancestors [oid])
  (env.first bases).getD oid

/-- lib.rs:139-166: one component, with its root. -/
def exactComponent (env : MoveCmdEnv) (d : Dag) (component : List Oid) :
    Except MoveRefusal (Oid × List Oid) :=
  match env.nav.toVec (d.graph.roots component) with
  | [root] =>
    if CommitGraph.count (d.graph.parents [root]) ≠ 1 then
      .error (.exactParents (CommitGraph.count (d.graph.parents [root])))
    else .ok (root, component)
  | _ => .error (.exactRoots (CommitGraph.count (d.graph.roots component)))

/-- lib.rs:134-170: the components by their roots. They are disjoint, so that no key is there twice. -/
def exactComponents (env : MoveCmdEnv) (d : Dag) (exacts : List Oid) :
    Except PlanFail (Except MoveRefusal (AMap Oid (List Oid))) :=
  match Dag.getConnectedComponents d.graph exacts with
  | none => .error .fuel
  | some (.error _) => .error .panic
  | some (.ok components) => .ok (components.mapM (exactComponent env d))

/-- lib.rs:87-96 and 177-201: the destination. -/
def moveDest (env : MoveCmdEnv) (args : MoveArgs) : Except MoveRefusal Oid :=
  match args.dest, args.head with
  | none, none => .error .noDest
  | none, some head => .ok head
  | some dest, _ =>
    match env.nav.toVec dest with
    | [only] => .ok only
    | other => .error (.destCount other.length)

/-- lib.rs:203-223: the bases, by default that of HEAD. -/
def moveBases (env : MoveCmdEnv) (d : Dag) (args : MoveArgs) (dest : Oid) : Except MoveRefusal (List Oid) :=
  let resolve (bases : List Oid) : List Oid :=
    (env.nav.toVec bases).map fun x => resolveBaseCommit env d (d.graph.gcaOne [x, dest]) x
  if args.provided then .ok (resolve args.bases)
  else
    match args.head with
    | none => .error .noSource
    | some head => .ok (resolve [head])

/-- lib.rs:298-309: the requests for the sources. (The methods of the builder only add to a list.) -/
def sourceRequests (env : MoveCmdEnv) (d : Dag) (fixup : Bool) (sources : List Oid) (dest : Oid) :
    List Constraint :=
  (env.nav.toVec (d.graph.roots sources)).flatMap fun root =>
    if fixup then (env.nav.toVec (d.graph.descendants [root])).map fun c => .fixUpCommit dest c
    else [.moveSubtree [dest] root]

/-- lib.rs:319-328: the roots of the components below. -/
def possibleDestinations (d : Dag) (components : AMap Oid (List Oid)) (roots : List Oid) (root : Oid) :
    List Oid :=
  roots.filter fun r => !((components.get? r).getD []).contains root && d.graph.isAncestor r root

/-- The first pair of neighbours of which one is not an ancestor of the other (lib.rs:343-366 and
423-434). -/
def lineageBreak (d : Dag) : List Oid → Option (Oid × Oid)
  | a :: b :: rest => if d.graph.isAncestor a b then lineageBreak d (b :: rest) else some (a, b)
  | _ => none

/-- lib.rs:330-380: where a component goes. -/
def componentDest (env : MoveCmdEnv) (d : Dag) (components : AMap Oid (List Oid)) (roots : List Oid)
    (dest root : Oid) : Except MoveRefusal Oid :=
  let possible := possibleDestinations d components roots root
  match possible.getLast? with
  | none => .ok dest
  | some nearest =>
    if (lineageBreak d possible).isSome then .error (.severalDestinations root)
    else
      let above := CommitGraph.inter (d.graph.ancestors [root]) ((components.get? nearest).getD [])
      .ok ((env.first (d.graph.heads above)).getD dest)

/-- lib.rs:391-403: a child of a component goes to the parent of the component. -/
def childRequests (d : Dag) (insert : Bool) (componentDest parent child : Oid) : List Constraint :=
  if insert && d.graph.isAncestor child componentDest then
    [.moveSubtree [parent] child, .moveChildren child componentDest]
  else [.moveSubtree [parent] child]

/-- lib.rs:316-413: the requests for one component. There is exactly one parent (`exactComponent`), so that
`unwrap` does not panic; the outer error stands for that panic. -/
def componentRequests (env : MoveCmdEnv) (d : Dag) (fixup insert : Bool) (components : AMap Oid (List Oid))
    (roots : List Oid) (dest root : Oid) : Except PlanFail (Except MoveRefusal (List Constraint)) :=
  match components.get? root with
  | none => .error .panic
  | some component =>
    match componentDest env d components roots dest root with
    | .error e => .ok (.error e)
    | .ok componentDest =>
      match env.first (d.graph.parents [root]) with
      | none => .error .panic
      | some parent =>
        let children := CommitGraph.diff (d.graph.children component) component
        let children := d.filterVisibleCommits children
        .ok (.ok ((env.nav.toVec children).flatMap (childRequests d insert componentDest parent) ++
          if fixup then (env.nav.toVec component).map fun c => .fixUpCommit dest c
          else [.moveSubtree [componentDest] root]))

/-- The loop over the components, which ends at the first failure. -/
def componentsRequests (one : Oid → Except PlanFail (Except MoveRefusal (List Constraint))) :
    List Oid → Except PlanFail (Except MoveRefusal (List Constraint))
  | [] => .ok (.ok [])
  | root :: rest =>
    match one root with
    | .error e => .error e
    | .ok (.error e) => .ok (.error e)
    | .ok (.ok cs) =>
      match componentsRequests one rest with
      | .error e => .error e
      | .ok (.error e) => .ok (.error e)
      | .ok (.ok cs') => .ok (.ok (cs ++ cs'))

/-- lib.rs:416-455: the commit on top of which the children of the destination go. -/
def sourceHead (env : MoveCmdEnv) (d : Dag) (components : AMap Oid (List Oid)) (roots sources : List Oid) :
    Except MoveRefusal Oid :=
  match lineageBreak d roots with
  | some (a, b) => .error (.noLineage a b)
  | none =>
    let exactHead := match roots.getLast? with
      | none => []
      | some last => d.graph.heads ((components.get? last).getD [])
    match env.nav.toVec (d.graph.heads (d.graph.descendants sources) ++ exactHead) with
    | [head] => .ok head
    | _ => .error .severalHeads

/-- lib.rs:457-471: the requests for the children of the destination. -/
def insertRequests (env : MoveCmdEnv) (d : Dag) (components : AMap Oid (List Oid)) (sources : List Oid)
    (dest head : Oid) : List Constraint :=
  let children := CommitGraph.diff (CommitGraph.diff (d.graph.children [dest]) sources)
    (components.flatMap Prod.snd)
  (env.nav.toVec (d.filterVisibleCommits children)).map fun c => .moveSubtree [head] c

/-- lib.rs:298-472: all requests. -/
def moveRequests (env : MoveCmdEnv) (d : Dag) (fixup insert : Bool) (sources : List Oid)
    (components : AMap Oid (List Oid)) (dest : Oid) :
    Except PlanFail (Except MoveRefusal (List Constraint)) :=
  let roots := sortedCommitSet env.nav d components.keys
  match componentsRequests (componentRequests env d fixup insert components roots dest) roots with
  | .error e => .error e
  | .ok (.error e) => .ok (.error e)
  | .ok (.ok cs) =>
    let cs := sourceRequests env d fixup sources dest ++ cs
    if insert then
      match sourceHead env d components roots sources with
      | .error e => .ok (.error e)
      | .ok head => .ok (.ok (cs ++ insertRequests env d components sources dest head))
    else .ok (.ok cs)

/-- lib.rs:277-285: the commits which have to be allowed to be rewritten. -/
def commitsToMove (d : Dag) (fixup insert : Bool) (sources : List Oid) (components : AMap Oid (List Oid))
    (dest : Oid) : List Oid :=
  sources ++ components.flatMap Prod.snd ++
    if insert || fixup then d.graph.children [dest] else []

/-- lib.rs:270-472: the builder with the requests. -/
def moveBuilder (env : MoveCmdEnv) (d : Dag) (fixup insert : Bool) (sources : List Oid)
    (components : AMap Oid (List Oid)) (dest : Oid) :
    Except PlanFail (Except MoveRefusal RebasePlanBuilder) :=
  match verifyRewriteSet d env.forceRewritePublicCommits env.detectDuplicateCommitsViaPatchId
      (commitsToMove d fixup insert sources components dest) with
  | .error e => .ok (.error (.planner e))
  | .ok permissions =>
    match moveRequests env d fixup insert sources components dest with
    | .error e => .error e
    | .ok (.error e) => .ok (.error e)
    | .ok (.ok cs) => .ok (.ok ⟨env.planEnv d, permissions, cs, []⟩)

/-- lib.rs:84-224: the commits and the destination. -/
def moveInputs (env : MoveCmdEnv) (d : Dag) (args : MoveArgs) :
    Except PlanFail (Except MoveRefusal (List Oid × AMap Oid (List Oid) × Oid)) :=
  match exactComponents env d args.exacts with
  | .error e => .error e
  | .ok (.error e) => .ok (.error e)
  | .ok (.ok components) =>
    match moveDest env args with
    | .error e => .ok (.error e)
    | .ok dest =>
      match moveBases env d args dest with
      | .error e => .ok (.error e)
      | .ok bases => .ok (.ok (args.sources ++ bases, components, dest))

/-- lib.rs:269-474: the plan. -/
def movePlan (env : MoveCmdEnv) (d : Dag) (fixup insert : Bool) (sources : List Oid)
    (components : AMap Oid (List Oid)) (dest : Oid) :
    Except PlanFail (Except MoveRefusal (Option RebasePlan)) :=
  match moveBuilder env d fixup insert sources components dest with
  | .error e => .error e
  | .ok (.error e) => .ok (.error e)
  | .ok (.ok b) =>
    match b.build with
    | .error e => .error e
    | .ok (.error e) => .ok (.error (.planner e))
    | .ok (.ok plan) => .ok (.ok plan)

/-- How `move` ends. -/
inductive MoveOutcome where
  /-- An `eyre` error, or a panic. -/
  | error
  | refused (e : MoveRefusal)
  /-- A merge conflict, exit code 1. -/
  | declined (info : FailedMergeInfo)
  | failed (exitCode : Nat)
  | done
deriving DecidableEq

/-- lib.rs:475-515: the execution of the plan. -/
def executeMove (env : MoveCmdEnv) (w : RepoWorld)
    (plan : Except PlanFail (Except MoveRefusal (Option RebasePlan))) : RepoWorld × MoveOutcome :=
  match plan with
  | .error _ => (w, .error)
  | .ok (.error e) => (w, .refused e)
  | .ok (.ok none) => (w, .done)
  | .ok (.ok (some plan)) =>
    match executeRebasePlan env.exec env.finish env.disk env.options plan w with
    | (w, .error _) => (w, .error)
    | (w, .ok (.succeeded _)) => (w, .done)
    | (w, .ok (.declinedToMerge info)) => (w, .declined info)
    | (w, .ok (.failed code)) => (w, .failed code)

/-- lib.rs:66-515 `move`. -/
def moveCommits (env : MoveCmdEnv) (main : Text) (graph : CommitGraph Oid) (txEnv : Option Text)
    (w : RepoWorld) (args : MoveArgs) : RepoWorld × MoveOutcome :=
  if args.dest.isNone && args.head.isNone then (w, .refused .noDest)
  else
    match openRepoDag graph main w with
    | none => (w, .error)
    | some (_, d) =>
      match moveInputs env d args with
      | .error _ => (w, .error)
      | .ok (.error e) => (w, .refused e)
      | .ok (.ok (sources, components, dest)) =>
        executeMove env { w with db := (w.db.makeTransactionId txEnv t!"move").2 }
          (movePlan env d args.fixup args.insert sources components dest)

end Verif
