import Verif.Model.Dag
import Verif.Model.Text
import Mathlib.Data.List.Sort

/-!
core/rewrite/plan.rs: the rebase planner.

A hash set of commits is a list of which only the members matter, without repetitions where the
code inserts into it; where the code iterates over one it sorts it first (or the model says
otherwise). `eyre::Result` errors and panics are both `PlanFail`.
-/

namespace Verif

/-- plan.rs:20-28 `OidOrLabel`. -/
inductive OidOrLabel where
  | oid (o : Oid)
  | label (l : Text)
deriving DecidableEq, Repr

/-- plan.rs:39-126 `RebaseCommand`. -/
inductive RebaseCommand where
  | createLabel (labelName : Text)
  | reset (target : OidOrLabel)
  | pick (originalCommitOid : Oid) (commitsToApplyOids : List Oid)
  | merge (commitOid : Oid) (commitsToMerge : List OidOrLabel)
  | replace (commitOid replacementCommitOid : Oid) (parents : List OidOrLabel)
  | break
  | registerExtraPostRewriteHook
  | detectEmptyCommit (commitOid : Oid)
  | skipUpstreamAppliedCommit (commitOid : Oid)
deriving DecidableEq, Repr

/-- plan.rs:187-197 `RebasePlan`. -/
structure RebasePlan where
  firstDestOid : Oid
  commands : List RebaseCommand
deriving DecidableEq, Repr

/-- plan.rs:620-640 `BuildRebasePlanError`. -/
inductive BuildRebasePlanError where
  | constraintCycle (cycleOids : List Oid)
  | movePublicCommits (publicCommitsToMove : List Oid)
  | moveIllegalCommits (illegalCommitsToMove : List Oid)
deriving DecidableEq, Repr

/-- The other ways in which building a plan ends without a plan: an `eyre` error, a panic; or the
model's bound on the depth of a recursion was too small (shown not to happen). -/
inductive PlanFail where
  | error
  | panic
  | fuel
deriving DecidableEq, Repr

/-- plan.rs:576-597 `Constraint`. -/
inductive Constraint where
  | moveChildren (parentOfOid childrenOfOid : Oid)
  | moveSubtree (parentOids : List Oid) (childOid : Oid)
  | fixUpCommit (commitToFixupOid fixupCommitOid : Oid)
deriving DecidableEq, Repr

/-- The order of object ids (`#[derive(Ord)]` of `NonZeroOid`, oid.rs:9): that of their bytes. -/
def sortOids (l : List Oid) : List Oid := l.insertionSort fun a b => a.val ≤ b.val

/-- plan.rs:199-204 `RebasePlanPermissions` (of the options only those with an effect on the plan:
plan.rs:600-617). -/
structure RebasePlanPermissions where
  detectDuplicateCommitsViaPatchId : Bool
  allowedCommits : List Oid
deriving DecidableEq

/-- plan.rs:208-232 `verify_rewrite_set`. -/
def verifyRewriteSet (dag : Dag) (forceRewritePublicCommits detect : Bool) (commits : List Oid) :
    Except BuildRebasePlanError RebasePlanPermissions :=
  let commits := dag.graph.descendants commits
  let publicCommitsToMove := CommitGraph.inter dag.publicCommits commits
  if !forceRewritePublicCommits && !publicCommitsToMove.isEmpty then
    .error (.movePublicCommits publicCommitsToMove)
  else .ok ⟨detect, commits⟩

/-- plan.rs:235-246 `ConstraintGraph`, the two maps. -/
structure Constraints where
  inner : AMap Oid (List Oid)
  fixups : AMap Oid (List Oid)
deriving DecidableEq

namespace Constraints

/-- `map.entry(k).or_default().insert(v)`. -/
def addTo (m : AMap Oid (List Oid)) (k v : Oid) : AMap Oid (List Oid) :=
  let vs := (AMap.get? m k).getD []
  AMap.insert m k (if vs.contains v then vs else vs ++ [v])

/-- `for commits in map.values_mut() { commits.remove(v); }`. -/
def removeFromAll (m : AMap Oid (List Oid)) (v : Oid) : AMap Oid (List Oid) :=
  m.map fun e => (e.1, e.2.filter fun c => c ≠ v)

/-- plan.rs:499-501 `parents`. -/
def parents (k : Constraints) : List Oid := k.inner.keys

/-- plan.rs:505-507 `commits_to_move`. -/
def commitsToMove (k : Constraints) : List Oid := k.inner.flatMap Prod.snd

/-- plan.rs:510-514 `commits_to_move_to`; `None` and an empty set are treated alike by the callers. -/
def commitsToMoveTo (k : Constraints) (p : Oid) : List Oid := (AMap.get? k.inner p).getD []

/-- plan.rs:517-519 `commits_to_fixup`. -/
def commitsToFixup (k : Constraints) : List Oid := k.fixups.keys

/-- plan.rs:523-525 `fixup_commits`. -/
def fixupCommits (k : Constraints) : List Oid := k.fixups.flatMap Prod.snd

/-- plan.rs:259-297: the first pass over a constraint. -/
def addFirst (k : Constraints) : Constraint → Constraints
  | .moveChildren _ _ => k
  | .moveSubtree ps c =>
    { k with inner := ps.foldl (fun m p => addTo m p c) (removeFromAll k.inner c) }
  | .fixUpCommit t f =>
    { inner := removeFromAll k.inner f, fixups := addTo k.fixups t f }

/-- plan.rs:299-313: the ends of the ranges which are taken out. -/
def rangeHeads (cs : List Constraint) : List Oid :=
  cs.filterMap fun
    | .moveSubtree _ _ => none
    | .moveChildren _ c => some c
    | .fixUpCommit _ f => some f

/-- plan.rs:319-323: the loop which looks for an unconstrained ancestor. -/
def unconstrainedAncestor (dag : Dag) (heads toMove : List Oid) : Nat → Oid → Except PlanFail Oid
  | 0, _ => .error .fuel
  | fuel + 1, p =>
    if heads.contains p && toMove.contains p then
      match dag.getOnlyParentOid p with
      | none => .error .error
      | some p' => unconstrainedAncestor dag heads toMove fuel p'
    else .ok p

/-- plan.rs:314-336: the closure `move_children`. -/
def moveChildren (dag : Dag) (heads : List Oid) (k : Constraints) (parentOf childrenOf : Oid) :
    Except PlanFail Constraints :=
  match dag.getOnlyParentOid parentOf with
  | none => .error .error
  | some p =>
    match unconstrainedAncestor dag heads k.commitsToMove (dag.graph.entries.length + 1) p with
    | .error e => .error e
    | .ok p =>
      let children := CommitGraph.diff (dag.graph.children [childrenOf]) k.commitsToMove
      let children := dag.filterVisibleCommits children
      .ok { k with inner := children.foldl (fun m c => addTo m p c) k.inner }

/-- plan.rs:338-355: the second pass over a constraint. -/
def addSecond (dag : Dag) (heads : List Oid) (k : Constraints) : Constraint → Except PlanFail Constraints
  | .moveChildren p c => moveChildren dag heads k p c
  | .fixUpCommit _ f => moveChildren dag heads k f f
  | .moveSubtree _ _ => .ok k

/-- plan.rs:258-358 `add_constraints`. -/
def addConstraints (dag : Dag) (k : Constraints) (cs : List Constraint) : Except PlanFail Constraints :=
  cs.foldlM (addSecond dag (rangeHeads cs)) (cs.foldl addFirst k)

/-- plan.rs:364-396 `add_descendant_constraints`. -/
def addDescendantConstraints (dag : Dag) (k : Constraints) : Except PlanFail Constraints :=
  let toMove := k.commitsToMove ++ k.commitsToFixup
  let descendants := CommitGraph.diff (dag.graph.descendants toMove) toMove
  let descendants := dag.filterVisibleCommits descendants
  addConstraints dag k (descendants.map fun d => .moveSubtree (dag.graph.parentsOf d) d)

/-- A loop which stops at the first error (`for x in xs { f(x)?; }`). -/
def tryEach {α ε : Type} (f : α → Option (Except ε Unit)) : List α → Option (Except ε Unit)
  | [] => some (.ok ())
  | x :: xs =>
    match f x with
    | none => none
    | some (.error e) => some (.error e)
    | some (.ok ()) => tryEach f xs

/-- plan.rs:398-418 `check_for_cycles_helper`; `path` is restored by the code on return. The outer
`none` says that the allowed depth was reached. -/
def checkForCyclesHelper (k : Constraints) :
    Nat → List Oid → Oid → Option (Except BuildRebasePlanError Unit)
  | 0, _, _ => none
  | fuel + 1, path, cur =>
    if path.contains cur then some (.error (.constraintCycle (path ++ [cur])))
    else tryEach (checkForCyclesHelper k fuel (path ++ [cur])) (sortOids (k.commitsToMoveTo cur))

/-- plan.rs:420-429 `check_for_cycles`. -/
def checkForCycles (k : Constraints) : Option (Except BuildRebasePlanError Unit) :=
  tryEach (checkForCyclesHelper k (k.parents.length + 2) []) (sortOids k.parents)

/-- plan.rs:431-445 `check_permissions`. -/
def checkPermissions (k : Constraints) (p : RebasePlanPermissions) :
    Except BuildRebasePlanError Unit :=
  let illegal := CommitGraph.diff k.commitsToMove p.allowedCommits
  if !illegal.isEmpty then .error (.moveIllegalCommits illegal) else .ok ()

/-- plan.rs:447-450: fixup targets which are not moved themselves. -/
def unconstrainedFixupNodes (k : Constraints) : List Oid :=
  CommitGraph.diff k.commitsToFixup k.commitsToMove

/-- plan.rs:450-454: destinations which are not moved themselves. -/
def unconstrainedNodes (k : Constraints) : List Oid :=
  CommitGraph.diff (CommitGraph.diff k.parents k.commitsToMove) k.unconstrainedFixupNodes

/-- plan.rs:447-480 `find_roots`: the edges to the children of destinations which are not moved,
and the fixup targets which are not moved. The derived order of `Constraint` sorts the former
(by parent, then child) before the latter. -/
def findRoots (k : Constraints) : List Constraint :=
  ((sortOids k.unconstrainedNodes).flatMap fun p =>
    (sortOids (k.commitsToMoveTo p)).map fun c => .moveSubtree [p] c) ++
  (sortOids k.unconstrainedFixupNodes).map fun t => .fixUpCommit t t

end Constraints

/-- What the planner reads from the repository besides the commit graph. `Dag` and repository agree
about the parents of a commit, and every commit exists in the repository. -/
structure PlanEnv where
  dag : Dag
  /-- repo.rs:921-931 `get_patch_id` of commits with at most one parent (819-823: a merge has
  none). Patch ids are compared only, so they are numbers. -/
  patchId : Oid → Nat
  /-- repo.rs:899-917 `get_paths_touched_by_commit`: the set of paths, compared only. -/
  touchedPaths : Oid → Nat
  /-- dag.rs:745-800 `sorted_commit_set`. -/
  sortedCommitSet : List Oid → List Oid
  /-- git/object.rs `Commit::get_parent_oids` for the commits which replace others. They were just written
  to the repository, so that the commit graph does not have them. -/
  replacementParentOids : Oid → List Oid

namespace PlanEnv

/-- git/object.rs `Commit::get_parent_oids`. -/
def parentOids (env : PlanEnv) (c : Oid) : List Oid := env.dag.graph.parentsOf c

/-- repo.rs:806-827, 921-931 `get_patch_id`. -/
def getPatchId (env : PlanEnv) (c : Oid) : Option Nat :=
  if (env.parentOids c).length > 1 then none else some (env.patchId c)

end PlanEnv

/-- plan.rs:559-574 `RebasePlanBuilder` (without the cache of touched paths). -/
structure RebasePlanBuilder where
  env : PlanEnv
  permissions : RebasePlanPermissions
  initialConstraints : List Constraint
  replacementCommits : AMap Oid Oid

/-- plan.rs:528-554 `BuildState`, and the commands made so far. The constraints do not change while
the commands are made. -/
structure BuildState where
  usedLabels : List Text
  parentLabels : AMap Oid Text
  acc : List RebaseCommand

namespace RebasePlanBuilder

/-- plan.rs:738-746 `make_label_name_inner`. -/
def makeLabelName (used : List Text) : Nat → Text → Option Text
  | 0, _ => none
  | fuel + 1, name =>
    if !used.contains name then some name else makeLabelName used fuel (name ++ ['\''])

/-- plan.rs:1440-1450 `should_check_patch_id`. -/
def shouldCheckPatchId (upstream : Nat) (loc : List Nat) : Bool := loc.contains upstream

/-- plan.rs:1270-1339 `get_upstream_patch_ids`, with 1341-1438
`filter_path_to_merge_base_commits`. The cache and the parallel evaluation have no effect on the
result. -/
def getUpstreamPatchIds (env : PlanEnv) (k : Constraints) (cur : Oid) (dests : List Oid) : List Nat :=
  let mergeBases := dests.flatMap fun d => env.dag.graph.gcaAll [cur, d]
  let path := env.dag.graph.range mergeBases dests
  let loc := k.commitsToMove.map env.touchedPaths
  let path := path.filter fun c => shouldCheckPatchId (env.touchedPaths c) loc
  path.filterMap env.getPatchId

/-- plan.rs:761-774: `patch_already_applied_upstream`. -/
def patchAlreadyAppliedUpstream (env : PlanEnv) (upstream : List Nat) (cur : Oid) : Bool :=
  match env.getPatchId cur with
  | some p => upstream.contains p
  | none => false

/-- plan.rs:786-812: the parents of a merge commit, `none` when one of them has to be rebased
first. -/
def commitsToMerge (env : PlanEnv) (k : Constraints) (labels : AMap Oid Text) (cur : Oid) :
    Option (List OidOrLabel) :=
  (env.parentOids cur).mapM fun p =>
    if k.commitsToMove.contains p then (AMap.get? labels p).map .label else some (.oid p)

/-- plan.rs:825-837: `commit_already_applied`. -/
def commitAlreadyApplied (acc : List RebaseCommand) (cur : Oid) : Bool :=
  acc.any fun
    | .merge c _ => c = cur
    | .replace c _ _ => c = cur
    | _ => false

/-- plan.rs:896-905: the parents of a replaced commit. -/
def replacementParents (env : PlanEnv) (labels : AMap Oid Text) (r : Oid) : List OidOrLabel :=
  (env.replacementParentOids r).map fun p =>
    match AMap.get? labels p with
    | none => .oid p
    | some l => .label l

/-- plan.rs:913-932: the commits squashed into the current commit. -/
def commitsToApply (env : PlanEnv) (k : Constraints) (cur : Oid) : List Oid :=
  match AMap.get? k.fixups cur with
  | none => [cur]
  | some fs => env.sortedCommitSet (cur :: fs)

/-- plan.rs:775-944: the commands for the current commit; `none` if it has to wait or has been
applied already. -/
def commandsFor (b : RebasePlanBuilder) (k : Constraints) (upstream : List Nat) (cur : Oid)
    (s : BuildState) : Option (List RebaseCommand) :=
  if patchAlreadyAppliedUpstream b.env upstream cur then some [.skipUpstreamAppliedCommit cur]
  else if (b.env.parentOids cur).length > 1 then
    match commitsToMerge b.env k s.parentLabels cur with
    | none => none
    | some ps =>
      if commitAlreadyApplied s.acc cur then none
      else
        match ps with
        | [] => none  -- unreachable, there are several parents
        | first :: rest =>
          match AMap.get? b.replacementCommits cur with
          | none => some [.reset first, .merge cur rest]
          | some r => some [.reset first, .replace cur r ps]
  else if k.fixupCommits.contains cur then some []
  else
    match AMap.get? b.replacementCommits cur with
    | some r => some [.replace cur r (replacementParents b.env s.parentLabels r)]
    | none => some [.pick cur (commitsToApply b.env k cur), .detectEmptyCommit cur]

/-- Appends commands. -/
def push (s : BuildState) (cs : List RebaseCommand) : BuildState := { s with acc := s.acc ++ cs }

/-- Creates a label with a fresh name (plan.rs:967-973 and 995-1000); returns its name. -/
def createLabel (s : BuildState) (stem : Text) : Option (Text × BuildState) :=
  match makeLabelName s.usedLabels (s.usedLabels.length + 1) (stem ++ natToText s.acc.length) with
  | none => none
  | some l =>
    some (l, { s with usedLabels := l :: s.usedLabels, acc := s.acc ++ [.createLabel l] })

/-- plan.rs:957-978: the label for children which are merge commits or replaced. -/
def createParentLabel (b : RebasePlanBuilder) (cur : Oid) (children : List Oid) (s : BuildState) :
    Option BuildState :=
  if children.any fun c =>
      (b.env.parentOids c).length > 1 || (AMap.get? b.replacementCommits c).isSome then
    match createLabel s t!"parent-" with
    | none => none
    | some (l, s) => some { s with parentLabels := AMap.insert s.parentLabels cur l }
  else some s

/-- plan.rs:1001-1013: one round of the loop over several children. -/
def visitThenReset (visit : Oid → BuildState → Option BuildState) (l : Text) (s : BuildState)
    (c : Oid) : Option BuildState :=
  (visit c s).map fun s => push s [.reset (.label l)]

/-- plan.rs:980-1015: the recursion over the children. -/
def visitChildren (visit : Oid → BuildState → Option BuildState) (children : List Oid)
    (s : BuildState) : Option BuildState :=
  match children with
  | [] => some s
  | [c] => visit c s
  | cs =>
    match createLabel s t!"label-" with
    | none => none
    | some (l, s) => cs.foldlM (visitThenReset visit l) s

/-- plan.rs:752-1016 `make_rebase_plan_for_current_commit`; `none` says that the allowed depth was
reached. -/
def makeRebasePlanForCurrentCommit (b : RebasePlanBuilder) (k : Constraints) (upstream : List Nat) :
    Nat → Oid → BuildState → Option BuildState
  | 0, _, _ => none
  | fuel + 1, cur, s =>
    match commandsFor b k upstream cur s with
    | none => some s
    | some cs =>
      let children := sortOids (k.commitsToMoveTo cur)
      match createParentLabel b cur children (push s cs) with
      | none => none
      | some s => visitChildren (makeRebasePlanForCurrentCommit b k upstream fuel) children s

/-- plan.rs:1153-1171: parents and commit of a root. -/
def rootEdge (env : PlanEnv) : Constraint → Except PlanFail (List Oid × Oid)
  | .moveSubtree ps c => .ok (ps, c)
  | .fixUpCommit t _ => .ok (env.parentOids t, t)
  | .moveChildren _ _ => .error .error

/-- plan.rs:1150-1202: one round of the loop over the roots; also the first destination. -/
def buildRoot (b : RebasePlanBuilder) (k : Constraints) (st : Option Oid × BuildState)
    (root : Constraint) : Except PlanFail (Option Oid × BuildState) :=
  match rootEdge b.env root with
  | .error e => .error e
  | .ok (ps, c) =>
    match ps with
    | [] => .error .panic
    | p :: _ =>
      let s := push st.2 [.reset (.oid p)]
      let upstream :=
        if b.permissions.detectDuplicateCommitsViaPatchId then getUpstreamPatchIds b.env k c ps
        else []
      match makeRebasePlanForCurrentCommit b k upstream (k.parents.length + 2) c s with
      | none => .error .fuel
      | some s => .ok (some (st.1.getD p), s)

/-- plan.rs:1105-1137: the constraint graph with the descendants. -/
def constraintGraph (b : RebasePlanBuilder) : Except PlanFail Constraints :=
  match Constraints.addConstraints b.env.dag ⟨[], []⟩ b.initialConstraints with
  | .error e => .error e
  | .ok k => Constraints.addDescendantConstraints b.env.dag k

/-- plan.rs:1146-1218: the commands for a constraint graph. -/
def buildCommands (b : RebasePlanBuilder) (k : Constraints) : Except PlanFail (Option RebasePlan) :=
  match k.findRoots.foldlM (buildRoot b k) (none, ⟨[], [], []⟩) with
  | .error e => .error e
  | .ok (dest, s) =>
    .ok (dest.map fun d => ⟨d, s.acc ++ [.registerExtraPostRewriteHook]⟩)

/-- plan.rs:1099-1218 `build`. The warning of `check_all_commits_included_in_rebase_plan`
(1220-1264) has no effect on the plan. -/
def build (b : RebasePlanBuilder) :
    Except PlanFail (Except BuildRebasePlanError (Option RebasePlan)) :=
  match constraintGraph b with
  | .error e => .error e
  | .ok k =>
    match k.checkForCycles with
    | none => .error .fuel
    | some (.error e) => .ok (.error e)
    | some (.ok ()) =>
      match k.checkPermissions b.permissions with
      | .error e => .ok (.error e)
      | .ok () =>
        match buildCommands b k with
        | .error e => .error e
        | .ok plan => .ok (.ok plan)

/-- plan.rs:1020-1031 `move_subtree` (with its assertion). -/
def moveSubtree (b : RebasePlanBuilder) (source : Oid) (dests : List Oid) :
    Except PlanFail RebasePlanBuilder :=
  if dests.isEmpty then .error .panic
  else .ok { b with initialConstraints := b.initialConstraints ++ [.moveSubtree dests source] }

/-- plan.rs:1044-1063 `move_range`. -/
def moveRange (b : RebasePlanBuilder) (source endOid dest : Oid) : RebasePlanBuilder :=
  { b with initialConstraints :=
      b.initialConstraints ++ [.moveSubtree [dest] source, .moveChildren source endOid] }

/-- plan.rs:1036-1042 `move_commit`. -/
def moveCommit (b : RebasePlanBuilder) (source dest : Oid) : RebasePlanBuilder :=
  moveRange b source source dest

/-- plan.rs:1065-1078 `fixup_commit`. -/
def fixupCommit (b : RebasePlanBuilder) (source dest : Oid) : RebasePlanBuilder :=
  { b with initialConstraints := b.initialConstraints ++ [.fixUpCommit dest source] }

/-- plan.rs:1080-1096 `replace_commit`. -/
def replaceCommit (b : RebasePlanBuilder) (original replacement : Oid) :
    Except PlanFail RebasePlanBuilder :=
  if (AMap.get? b.replacementCommits original).isSome then .error .error
  else .ok { b with replacementCommits := AMap.insert b.replacementCommits original replacement }

end RebasePlanBuilder
end Verif
