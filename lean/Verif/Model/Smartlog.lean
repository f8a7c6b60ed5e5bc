import Verif.Model.Dag
import Mathlib.Data.List.Sort

/-!
The smartlog: which commits are shown, how they are linked, and the lines which are printed. Model of
git-branchless-smartlog/src/lib.rs. (The descriptions of the commits, the colours, `--reverse` and the hint at the
end are not modelled.)
-/

namespace Verif

/-- lib.rs:60-64 `AncestorInfo`. -/
structure AncestorInfo where
  oid : Oid
  distance : Nat
deriving DecidableEq

/-- lib.rs:66-70 `ChildInfo`. -/
structure ChildInfo where
  oid : Oid
  isMergeChild : Bool
deriving DecidableEq

/-- lib.rs:71-119 `Node`; of `object`, whether the commit still exists. -/
structure SmartlogNode where
  found : Bool
  parents : List Oid
  children : List ChildInfo
  ancestorInfo : Option AncestorInfo
  descendants : List ChildInfo
  isMain : Bool
  isObsolete : Bool
  numOmittedDescendants : Nat
deriving DecidableEq

/-- lib.rs:122-125 `SmartlogGraph`. -/
abbrev SmartlogGraph := AMap Oid SmartlogNode

/-- What the smartlog reads besides the graph of commits. -/
structure SmartlogEnv where
  /-- `find_commit` finds the commit; its errors are not modelled. -/
  existing : Oid → Bool
  /-- The time of the commit, as one number. -/
  time : Oid → Nat
  /-- The order in which a hash map is iterated. -/
  shuffle : List Oid → List Oid
  /-- The order in which a hash set is iterated. -/
  shuffleSet : List ChildInfo → List ChildInfo
  /-- Rust's `sort_by`, whose result is not specified if the comparison is not a total order. -/
  sortBy : (Oid → Oid → Ordering) → List Oid → List Oid

/-- lib.rs:165-176: the commits which are shown for one of the given ones. -/
def shownFor (dag : Dag) (commits : List Oid) (vertex : Oid) : List Oid :=
  let includeMain := !(CommitGraph.inter dag.mainBranchCommit commits).isEmpty
  let mergeBases :=
    if includeMain then dag.graph.gcaAll (dag.mainBranchCommit ++ [vertex])
    else dag.graph.gcaAll (commits ++ [vertex])
  vertex :: mergeBases

/-- lib.rs:187-199: a node without links. -/
def bareNode (env : SmartlogEnv) (dag : Dag) (oid : Oid) : SmartlogNode where
  found := env.existing oid
  parents := []
  children := []
  ancestorInfo := none
  descendants := []
  isMain := dag.isPublicCommit oid
  isObsolete := dag.obsoleteCommits.contains oid
  numOmittedDescendants := 0

/-- lib.rs:167-203: the nodes. -/
def bareGraph (env : SmartlogEnv) (dag : Dag) (commits : List Oid) : SmartlogGraph :=
  commits.foldl (fun result vertex =>
    (shownFor dag commits vertex).foldl (fun result oid => AMap.insert result oid (bareNode env dag oid)) result) []

/-- lib.rs:216-233: the links of a commit to its parents: child, parent, and whether it is not the first
parent. -/
def immediateLinks (dag : Dag) (vertices : List Oid) (child : Oid) : List (Oid × Oid × Bool) :=
  match dag.graph.parentsOf child with
  | [] => []
  | first :: merge =>
    (if vertices.contains first then [(child, first, false)] else []) ++
      (merge.filter fun p => vertices.contains p).map fun p => (child, p, true)

/-- lib.rs:244-253: the nearest ancestors, on the way from a parent which is not shown to the main branch. -/
def nearestAncestors (dag : Dag) (vertices : List Oid) (parent : Oid) : List Oid :=
  let path := match dag.graph.gcaOne (dag.mainBranchCommit ++ [parent]) with
    | some mergeBase => dag.graph.range [mergeBase] [parent]
    | none => []
  dag.graph.headsAncestors (CommitGraph.inter path vertices)

/-- lib.rs:235-258: the links of a commit to more distant ancestors: ancestor, descendant, `false`. -/
def nonImmediateLinks (dag : Dag) (vertices : List Oid) (child : Oid) : List (Oid × Oid × Bool) :=
  ((dag.graph.parentsOf child).filter fun p => !vertices.contains p).flatMap fun p =>
    (nearestAncestors dag vertices p).map fun ancestor => (ancestor, child, false)

/-- `graph.get_mut(oid).unwrap()`, and a change. -/
def modifyNode (graph : SmartlogGraph) (oid : Oid) (f : SmartlogNode → SmartlogNode) : Except Panic SmartlogGraph :=
  match AMap.get? graph oid with
  | none => .error .panic
  | some node => .ok (AMap.insert graph oid (f node))

/-- lib.rs:261-267. -/
def addImmediate (graph : SmartlogGraph) (link : Oid × Oid × Bool) : Except Panic SmartlogGraph := do
  let graph ← modifyNode graph link.1 fun n => { n with parents := n.parents ++ [link.2.1] }
  modifyNode graph link.2.1 fun n => { n with children := n.children ++ [⟨link.1, link.2.2⟩] }

/-- lib.rs:269-289. -/
def addNonImmediate (dag : Dag) (graph : SmartlogGraph) (link : Oid × Oid × Bool) : Except Panic SmartlogGraph := do
  let between := CommitGraph.diff (dag.graph.range [link.1] [link.2.1]) [link.1, link.2.1]
  let graph ← modifyNode graph link.2.1 fun n =>
    { n with ancestorInfo := some ⟨link.1, CommitGraph.count between⟩ }
  modifyNode graph link.1 fun n => { n with descendants := n.descendants ++ [⟨link.2.1, link.2.2⟩] }

/-- lib.rs:291-309: the descendants which are not shown. -/
def countOmitted (dag : Dag) (oid : Oid) (node : SmartlogNode) : SmartlogNode :=
  let isMainHead := dag.mainBranchCommit.contains oid
  let ancestorOfMain := node.isMain && !isMainHead
  let hasDescendantsInGraph := !node.children.isEmpty || !node.descendants.isEmpty
  if ancestorOfMain || hasDescendantsInGraph then node
  else
    let omitted := dag.filterVisibleCommits (CommitGraph.diff (dag.graph.descendants [oid]) [oid])
    { node with numOmittedDescendants := CommitGraph.count omitted }

/-- lib.rs:208-215: the commits which are not on the main branch. -/
def offMain (graph : SmartlogGraph) (oid : Oid) : Bool :=
  match AMap.get? graph oid with
  | some node => !node.isMain
  | none => false

/-- lib.rs:159-312 `build_graph`. -/
def buildGraph (env : SmartlogEnv) (dag : Dag) (commits : List Oid) : Except Panic SmartlogGraph := do
  let bare := bareGraph env dag commits
  let vertices := AMap.keys bare
  let nonMain := (env.shuffle vertices).filter (offMain bare)
  let graph ← (nonMain.flatMap (immediateLinks dag vertices)).foldlM addImmediate bare
  let graph ← (nonMain.flatMap (nonImmediateLinks dag vertices)).foldlM (addNonImmediate dag) graph
  pure (graph.map fun e => (e.1, countOmitted dag e.1 e.2))

/-- lib.rs:331-337: the order of the children. The keys are a time (nothing for a commit which no longer exists),
whether it is a merge, and the object id as text, whose order is the one of the number. -/
def childBefore (time : Oid → Option Nat) (a b : ChildInfo) : Prop :=
  let t (o : Oid) : Nat := match time o with | none => 0 | some t => t + 1
  t a.oid < t b.oid ∨ (t a.oid = t b.oid ∧
    (a.isMergeChild.toNat < b.isMergeChild.toNat ∨
      (a.isMergeChild.toNat = b.isMergeChild.toNat ∧ a.oid.val ≤ b.oid.val)))

instance (time : Oid → Option Nat) : DecidableRel (childBefore time) := fun a b => by
  unfold childBefore
  infer_instance

/-- lib.rs:331-337: the children of one node, sorted. -/
def sortNode (env : SmartlogEnv) (node : SmartlogNode) : SmartlogNode :=
  let before := childBefore fun o => if env.existing o then some (env.time o) else none
  { node with children := node.children.insertionSort before }

/-- lib.rs:316-339 `sort_children`. (`commit_times[oid]` panics for a child which is not in the graph; there
is none, see `smartlog_graph_exact`.) -/
def sortChildren (env : SmartlogEnv) (graph : SmartlogGraph) : SmartlogGraph :=
  graph.map fun e => (e.1, sortNode env e.2)

/-- lib.rs:342-373 `make_smartlog_graph`. That the commits are kept from garbage collection
(`mark_commit_reachable`) is not modelled here. -/
def makeSmartlogGraph (env : SmartlogEnv) (dag : Dag) (commits : List Oid) (exact : Bool) :
    Except Panic SmartlogGraph := do
  let commits := if exact then commits else commits ++ dag.headCommit ++ dag.mainBranchCommit
  let graph ← buildGraph env dag commits
  pure (sortChildren env graph)

/-! ### the lines -/

/-- A line at the left of another line. -/
inductive Rail where
  | line
  | ellipsis
deriving DecidableEq

/-- What a line says. -/
inductive LineItem where
  /-- "… omitted commits" -/
  | omitted (count : Nat)
  | ellipsis
  /-- A parent of a merge commit which is not the first one: it is only mentioned. -/
  | mergeParent (oid : Oid)
  | mergeJoin
  /-- A commit, with its symbol, which tells whether it is on the main branch, obsolete, or `HEAD`. -/
  | commit (oid : Oid) (isMain isObsolete isHead : Bool)
  /-- "… omitted descendant commits" -/
  | omittedDescendants (count : Nat)
  /-- A merge commit which is not shown here: it is only mentioned. -/
  | mergeChild (oid : Oid)
  | split
  | line
  | empty
deriving DecidableEq

abbrev SmartlogLine := List Rail × LineItem

/-- How the rendering can fail. -/
inductive RenderError where
  | panic
  /-- The bound on the depth was reached; `smartlog_rendered` shows that this does not happen. -/
  | fuel
deriving DecidableEq

/-- lib.rs:461-477: the lines for the commits between the ancestor and this commit. -/
def omittedLines : Option AncestorInfo → List SmartlogLine
  | some info => [([], .omitted info.distance), ([], .ellipsis)]
  | none => []

/-- lib.rs:461-553: the lines of the commit itself. -/
def ownLines (graph : SmartlogGraph) (head : Option Oid) (oid : Oid) (node : SmartlogNode) (last : Option Rail) :
    Except RenderError (List SmartlogLine) :=
  let omitted := omittedLines node.ancestorInfo
  let mergeParents := node.parents.drop 1
  if mergeParents.all fun p => (AMap.get? graph p).isSome then
    let merge :=
      if mergeParents.isEmpty then []
      else (mergeParents.map fun p => ([last.getD .line], .mergeParent p)) ++ [([], .mergeJoin)]
    let self := [([], .commit oid node.isMain node.isObsolete (decide (some oid = head)))]
    let omittedDescendants :=
      if node.numOmittedDescendants > 0 then [([], .ellipsis), ([], .omittedDescendants node.numOmittedDescendants)]
      else []
    .ok (omitted ++ merge ++ self ++ omittedDescendants)
  else .error .panic

/-- lib.rs:629-645: the lines of a child, with the line at their left. -/
def besides (isLast : Bool) (last : Option Rail) (lines : List SmartlogLine) : List SmartlogLine :=
  lines.map fun l =>
    if isLast then
      match last with
      | some rail => (rail :: l.1, l.2)
      | none => l
    else (.line :: l.1, l.2)

/-- lib.rs:577-646: the loop over the children; `render` is the recursive call, `total` the number of them. -/
def childLines (graph : SmartlogGraph) (roots : List Oid) (node : SmartlogNode) (last : Option Rail) (total : Nat)
    (render : Oid → Except RenderError (List SmartlogLine)) :
    Nat → List ChildInfo → Except RenderError (List SmartlogLine)
  | _, [] => .ok []
  | index, child :: rest => do
    if roots.contains child.oid then childLines graph roots node last total render (index + 1) rest
    else if child.isMergeChild then
      let rest ← childLines graph roots node last total render (index + 1) rest
      pure (([], .mergeChild child.oid) :: rest)
    else
      let isLast := index + 1 = total
      let connector : LineItem :=
        if !isLast || last.isSome then .split
        else if node.descendants.isEmpty then .line
        else .ellipsis
      let lines ← render child.oid
      let rest ← childLines graph roots node last total render (index + 1) rest
      pure (([], connector) :: besides isLast last lines ++ rest)

/-- lib.rs:452-648 `get_child_output`. `graph.nodes[&current_oid]` panics if there is none; the nodes of the
children which are only mentioned are among those for which it is asked whether they exist. -/
def childOutput (env : SmartlogEnv) (graph : SmartlogGraph) (roots : List Oid) (head : Option Oid) :
    Nat → Oid → Option Rail → Except RenderError (List SmartlogLine)
  | 0, _, _ => .error .fuel
  | fuel + 1, oid, last =>
    match AMap.get? graph oid with
    | none => .error .panic
    | some node => do
      let own ← ownLines graph head oid node last
      let children := node.children.filter fun c => (AMap.get? graph c.oid).isSome
      let descendants := env.shuffleSet ((node.descendants.filter fun c => (AMap.get? graph c.oid).isSome).dedup)
      let below ← childLines graph roots node last (children.length + descendants.length)
        (fun child => childOutput env graph roots head fuel child none) 0 (children ++ descendants)
      pure (own ++ below)

/-- lib.rs:415-445: the comparison of two roots. -/
def rootCompare (env : SmartlogEnv) (dag : Dag) (a b : Oid) : Ordering :=
  if env.existing a && env.existing b then
    let byTime := (compare (env.time a) (env.time b)).then (compare a.val b.val)
    match dag.graph.gcaOne [a, b] with
    | some base => if base = a then .lt else if base = b then .gt else byTime
    | none => byTime
  else compare a.val b.val

/-- lib.rs:407-414: a commit which has no link below. -/
def isRootNode (graph : SmartlogGraph) (oid : Oid) : Bool :=
  match AMap.get? graph oid with
  | some node => node.parents.isEmpty && node.ancestorInfo.isNone
  | none => false

/-- lib.rs:402-449 `split_commit_graph_by_roots`. -/
def splitByRoots (env : SmartlogEnv) (dag : Dag) (graph : SmartlogGraph) : List Oid :=
  env.sortBy (rootCompare env dag) ((env.shuffle (AMap.keys graph)).filter (isRootNode graph))

/-- lib.rs:667-671 `has_real_parent`. -/
def hasRealParent (dag : Dag) (oid parent : Oid) : Bool := (dag.graph.parents [oid]).contains parent

/-- lib.rs:688-696: the line which continues to the next root. -/
def nextRail (dag : Dag) (root : Oid) : List Oid → Option Rail
  | [] => none
  | next :: _ => some (if hasRealParent dag next root then Rail.line else Rail.ellipsis)

/-- lib.rs:673-707: the loop over the roots; `before` is the root before this one. -/
def rootLines (env : SmartlogEnv) (dag : Dag) (graph : SmartlogGraph) (head : Option Oid) (roots : List Oid)
    (fuel : Nat) : Option Oid → List Oid → Except RenderError (List SmartlogLine)
  | _, [] => .ok []
  | before, root :: rest => do
    let above : List SmartlogLine :=
      if !(dag.graph.parents [root]).isEmpty then
        [([], if before.any (hasRealParent dag root ·) then .line else .ellipsis)]
      else if before.isSome then [([], .empty)]
      else []
    let lines ← childOutput env graph roots head fuel root (nextRail dag root rest)
    let below ← rootLines env dag graph head roots fuel (some root) rest
    pure (above ++ lines ++ below)

/-- lib.rs:714-732 `render_graph`. -/
def renderGraph (env : SmartlogEnv) (dag : Dag) (graph : SmartlogGraph) (head : Option Oid) :
    Except RenderError (List SmartlogLine) :=
  let roots := splitByRoots env dag graph
  rootLines env dag graph head roots (dag.graph.nodes.length + 2) none roots

end Verif
