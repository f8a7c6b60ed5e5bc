import Verif.Model.Replay
import Mathlib.Data.List.Dedup

/-!
The commit graph: the operations of the external `eden_dag` library as far as they are used, and
core/dag.rs on top of them.

`eden_dag::NameSet` (`CommitSet`, dag.rs:53) is a list of commits of which only the members matter;
where the code iterates over a set, the model follows the order of the list, which is arbitrary in
the theorems. Errors of the library (an unknown vertex, I/O) are not modelled: an unknown commit
counts as a commit without relatives.
-/

namespace Verif

/-- A commit graph: the commits with their parents, newest first (`eden_dag` numbers the commits
such that parents have smaller numbers than their children). -/
structure CommitGraph (N : Type) where
  entries : List (N × List N)
deriving DecidableEq

namespace CommitGraph

variable {N : Type} [DecidableEq N]

/-- `DagAlgorithm::all`. -/
def nodes (g : CommitGraph N) : List N := g.entries.map Prod.fst

/-- `DagAlgorithm::parent_names`. -/
def parentsOf (g : CommitGraph N) (c : N) : List N := (AMap.get? g.entries c).getD []

/-- `DagAlgorithm::parents` of a set. -/
def parents (g : CommitGraph N) (s : List N) : List N := s.flatMap g.parentsOf

/-- `DagAlgorithm::children` of a set. -/
def children (g : CommitGraph N) (s : List N) : List N :=
  g.nodes.filter fun c => (g.parentsOf c).any fun p => s.contains p

/-- The commits of the set and everything reachable from them through parents. -/
def ancestorsIn : List (N × List N) → List N → List N
  | [], _ => []
  | (c, ps) :: rest, s =>
    if s.contains c then c :: ancestorsIn rest (ps ++ s) else ancestorsIn rest s

/-- `DagAlgorithm::ancestors` (inclusive). -/
def ancestors (g : CommitGraph N) (s : List N) : List N := ancestorsIn g.entries s

/-- The commits of the set and everything which reaches them through parents. -/
def descendantsIn : List (N × List N) → List N → List N
  | [], _ => []
  | (c, ps) :: rest, s =>
    let d := descendantsIn rest s
    if s.contains c || ps.any fun p => d.contains p then c :: d else d

/-- `DagAlgorithm::descendants` (inclusive). -/
def descendants (g : CommitGraph N) (s : List N) : List N := descendantsIn g.entries s

/-- `NameSet::intersection`. -/
def inter (a b : List N) : List N := a.filter fun c => b.contains c

/-- `NameSet::difference`. -/
def diff (a b : List N) : List N := a.filter fun c => !b.contains c

/-- `DagAlgorithm::heads`: commits of the set which are not parents of another one in it. -/
def heads (g : CommitGraph N) (s : List N) : List N := diff s (g.parents s)

/-- `DagAlgorithm::roots`: commits of the set which are not children of another one in it. -/
def roots (g : CommitGraph N) (s : List N) : List N := diff s (g.children s)

/-- `DagAlgorithm::is_ancestor` (inclusive). -/
def isAncestor (g : CommitGraph N) (a d : N) : Bool := (g.ancestors [d]).contains a

/-- `DagAlgorithm::only`. -/
def only (g : CommitGraph N) (reachable unreachable : List N) : List N :=
  diff (g.ancestors reachable) (g.ancestors unreachable)

/-- `DagAlgorithm::range`. -/
def range (g : CommitGraph N) (roots heads : List N) : List N :=
  inter (g.descendants roots) (g.ancestors heads)

/-- `DagAlgorithm::common_ancestors`. -/
def commonAncestors (g : CommitGraph N) (s : List N) : List N :=
  if s.isEmpty then []
  else g.nodes.filter fun c => s.all fun d => g.isAncestor c d

/-- `DagAlgorithm::heads_ancestors`: commits of the set which are not proper ancestors of another
one in it. -/
def headsAncestors (g : CommitGraph N) (s : List N) : List N :=
  s.filter fun c => s.all fun d => d = c || !g.isAncestor c d

/-- `DagAlgorithm::gca_all`. -/
def gcaAll (g : CommitGraph N) (s : List N) : List N := g.headsAncestors (g.commonAncestors s)

/-- `DagAlgorithm::gca_one`: the newest one. -/
def gcaOne (g : CommitGraph N) (s : List N) : Option N := (g.gcaAll s).head?

/-- dag.rs:359-366 `sort`: parents first. -/
def sort (g : CommitGraph N) (s : List N) : List N := (inter g.nodes s).reverse

/-- `NameSet::count`. -/
def count (s : List N) : Nat := s.dedup.length

end CommitGraph

/-- dag.rs:131-158 `Dag` (without the caches, whose values are recomputed here). -/
structure Dag where
  graph : CommitGraph Oid
  headCommit : List Oid
  mainBranchCommit : List Oid
  branchCommits : List Oid
  observedCommits : List Oid
  obsoleteCommits : List Oid

namespace Dag

/-- dag.rs:206-253 `open_without_syncing`, where `graph` is the stored graph
(`open_inner_dag`, 256-263). -/
def openWithoutSyncing (graph : CommitGraph Oid) (r : Replayer) (c : Cursor)
    (refs : Replayer.RefsSnapshot) : Dag where
  graph := graph
  headCommit := match refs.headOid with
    | some o => [o]
    | none => []
  mainBranchCommit := [refs.mainBranchOid]
  branchCommits := refs.branchOidToNames.keys
  observedCommits := r.cursorOids c
  obsoleteCommits := (r.cursorOids c).filter fun o =>
    match r.activityStatus c o with
    | .active | .inactive => false
    | .obsolete => true

/-- dag.rs:340-356 `clear_obsolete_commits`. -/
def clearObsoleteCommits (d : Dag) : Dag := { d with obsoleteCommits := [] }

/-- dag.rs:388-395 `get_only_parent_oid`; `none` is the error. -/
def getOnlyParentOid (d : Dag) (o : Oid) : Option Oid :=
  match (d.graph.parents [o]).dedup with
  | [p] => some p
  | _ => none

/-- dag.rs:405-416 `is_public_commit`. -/
def isPublicCommit (d : Dag) (o : Oid) : Bool :=
  d.mainBranchCommit.any fun m => d.graph.isAncestor o m

/-- dag.rs:466-472 `query_public_commits_slow`. -/
def publicCommits (d : Dag) : List Oid := d.graph.ancestors d.mainBranchCommit

/-- dag.rs:478-488 `query_visible_heads`. -/
def visibleHeads (d : Dag) : List Oid :=
  d.graph.heads (CommitGraph.diff d.observedCommits d.obsoleteCommits ++ d.headCommit
    ++ d.mainBranchCommit ++ d.branchCommits)

/-- dag.rs:494-500 `query_visible_commits_slow`. -/
def visibleCommits (d : Dag) : List Oid := d.graph.ancestors d.visibleHeads

/-- dag.rs:505-510 `filter_visible_commits`. -/
def filterVisibleCommits (d : Dag) (s : List Oid) : List Oid :=
  CommitGraph.inter s (d.graph.range s d.visibleHeads)

/-- dag.rs:522-531 `query_draft_commits`. -/
def draftCommits (d : Dag) : List Oid := d.graph.only d.visibleHeads d.mainBranchCommit

/-- dag.rs:536-555 `query_stack_commits`. -/
def stackCommits (d : Dag) (s : List Oid) : List Oid :=
  let draft := d.draftCommits
  let stackRoots := d.graph.roots draft
  let stackAncestors := d.graph.range stackRoots s
  d.graph.range stackAncestors draft

/-- dag.rs:698-705: the loop which collects one component; returns it and the commits which are
left. `fuel` is the number of rounds allowed, `none` says they were not enough. -/
def collectComponent (g : CommitGraph Oid) :
    Nat → List Oid → List Oid → List Oid → Option (List Oid × List Oid)
  | 0, _, _, _ => none
  | fuel + 1, commits, component, left =>
    if commits.isEmpty then some (component, left)
    else
      let component := component ++ commits
      let left := CommitGraph.diff left commits
      let commits := CommitGraph.inter (g.parents commits ++ g.children commits) left
      collectComponent g fuel commits component left

/-- dag.rs:688-709: the loop over the commits; `components` are those found so far. -/
def collectComponents (g : CommitGraph Oid) :
    List Oid → List Oid → List (List Oid) → Option (List (List Oid))
  | [], _, components => some components
  | c :: cs, left, components =>
    if left.isEmpty then some components
    else if !left.contains c then collectComponents g cs left components
    else
      match collectComponent g (left.length + 2) [c] [] left with
      | none => none
      | some (component, left) => collectComponents g cs left (components ++ [component])

/-- dag.rs:681-721 `get_connected_components`. The outer `none` says that a loop did not finish;
the two assertions at the end are panics. -/
def getConnectedComponents (g : CommitGraph Oid) (s : List Oid) :
    Option (Except Panic (List (List Oid))) :=
  match collectComponents g s.dedup s [] with
  | none => none
  | some components =>
    let connected := components.flatten
    if CommitGraph.count s ≠ CommitGraph.count connected then some (.error .panic)
    else if CommitGraph.count s ≠ CommitGraph.count (CommitGraph.inter s connected) then
      some (.error .panic)
    else some (.ok components)

end Dag
end Verif
