import Verif.Model.Smartlog
import Verif.Spec.Plan
import Verif.Spec.Revset

/-! What the smartlog should show, in terms of the commit graph. -/

namespace Verif.Spec

open Verif

/-- A best common ancestor of some commits. -/
def MergeBase (g : CommitGraph Oid) (s : List Oid) (o : Oid) : Prop :=
  o ∈ g.nodes ∧ (∀ d ∈ s, Anc g o d) ∧ ∀ o', (∀ d ∈ s, Anc g o' d) → Anc g o o' → o' = o

/-- The commits which are shown: the given ones; and, where each of them leaves the main branch; or, if the main
branch itself is not given, where all of them meet. -/
def Shown (dag : Dag) (commits : List Oid) (o : Oid) : Prop :=
  o ∈ commits ∨
  ((∃ m ∈ dag.mainBranchCommit, m ∈ commits) ∧
    ∃ v ∈ commits, MergeBase dag.graph (dag.mainBranchCommit ++ [v]) o) ∨
  ((¬ ∃ m ∈ dag.mainBranchCommit, m ∈ commits) ∧ commits ≠ [] ∧ MergeBase dag.graph commits o)

/-- The commits of which the smartlog is made: unless exactly the given ones are requested, also `HEAD` and the main
branch. -/
def smartlogSelected (dag : Dag) (commits : List Oid) (exact : Bool) : List Oid :=
  if exact then commits else commits ++ dag.headCommit ++ dag.mainBranchCommit

/-- `p` is the first parent of `c`. -/
def IsFirstParent (g : CommitGraph Oid) (p c : Oid) : Prop := ∃ ps, (c, p :: ps) ∈ g.entries

/-- `p` is another parent of the merge commit `c`. -/
def MergeParent (g : CommitGraph Oid) (p c : Oid) : Prop := ∃ f ps, (c, f :: ps) ∈ g.entries ∧ p ∈ ps

/-- A parent of `c` is not shown, and `a` is the nearest shown commit on the way from that parent to the main
branch. (`gcaOne` is the newest of the best common ancestors.) -/
def DistantParent (dag : Dag) (commits : List Oid) (a c : Oid) : Prop :=
  ∃ p b, IsParent dag.graph p c ∧ ¬ Shown dag commits p ∧
    dag.graph.gcaOne (dag.mainBranchCommit ++ [p]) = some b ∧
    Shown dag commits a ∧ Anc dag.graph b a ∧ Anc dag.graph a p ∧
    ∀ a', Shown dag commits a' → Anc dag.graph b a' → Anc dag.graph a' p → Anc dag.graph a a' → a' = a

/-- `x` is strictly between two commits. -/
def Between (g : CommitGraph Oid) (a c x : Oid) : Prop := Anc g a x ∧ Anc g x c ∧ x ≠ a ∧ x ≠ c

/-- A commit which is shown below nothing: it is on the main branch, or neither a parent of it nor a more distant
ancestor is found. -/
def SmartlogRoot (dag : Dag) (commits : List Oid) (o : Oid) : Prop :=
  Shown dag commits o ∧ (Public dag o ∨
    ((∀ p, IsParent dag.graph p o → ¬ Shown dag commits p) ∧ ∀ a, ¬ DistantParent dag commits a o))

/-- `o` is shown above `s`. -/
def SmartlogLink (dag : Dag) (commits : List Oid) (s o : Oid) : Prop :=
  Shown dag commits s ∧ Shown dag commits o ∧ ¬ Public dag o ∧
    (IsFirstParent dag.graph s o ∨ DistantParent dag commits s o)

open Classical in
/-- How many links there are from `s` to `o`: a merge commit can have one for its first parent, and others for
parents which are not shown. -/
noncomputable def linkCount (dag : Dag) (commits : List Oid) (s o : Oid) : Nat :=
  if Shown dag commits s ∧ Shown dag commits o ∧ ¬ Public dag o then
    (if IsFirstParent dag.graph s o then 1 else 0) + (if DistantParent dag commits s o then 1 else 0)
  else 0

/-- Above some root. -/
inductive SmartlogReached (dag : Dag) (commits : List Oid) : Oid → Prop
  | root {o} : SmartlogRoot dag commits o → SmartlogReached dag commits o
  | link {s o} : SmartlogReached dag commits s → SmartlogLink dag commits s o → SmartlogReached dag commits o

/-- Off the main branch, there are no merge commits. -/
def LinearDrafts (dag : Dag) : Prop :=
  ∀ c ps, (c, ps) ∈ dag.graph.entries → ¬ Public dag c → ps.length ≤ 1

/-- `n` commits have the property. -/
def HowMany (n : Nat) (P : Oid → Prop) : Prop := ∃ l : List Oid, l.Nodup ∧ l.length = n ∧ ∀ x, x ∈ l ↔ P x

open Classical in
/-- The node of a commit in the graph of the smartlog says what is true of that commit. -/
structure NodeExact (env : SmartlogEnv) (dag : Dag) (commits : List Oid) (o : Oid) (n : SmartlogNode) : Prop where
  found : n.found = env.existing o
  isMain : n.isMain = true ↔ Public dag o
  isObsolete : n.isObsolete = true ↔ o ∈ dag.obsoleteCommits
  /-- The parents are listed in their order, for a commit which is not on the main branch. -/
  parents : n.parents = if Public dag o then [] else (dag.graph.parentsOf o).filter fun p => decide (Shown dag commits p)
  children : ∀ c m, (⟨c, m⟩ : ChildInfo) ∈ n.children ↔
    Shown dag commits c ∧ ¬ Public dag c ∧ (m = false ∧ IsFirstParent dag.graph o c ∨ m = true ∧ MergeParent dag.graph o c)
  childOnce : ∀ c, n.children.count ⟨c, false⟩ ≤ 1
  /-- The children are listed in the order of time. -/
  sorted : n.children.Pairwise fun a b => env.existing a.oid = true → env.existing b.oid = true →
    env.time a.oid ≤ env.time b.oid
  ancestor : n.ancestorInfo = none ↔ Public dag o ∨ ∀ a, ¬ DistantParent dag commits a o
  distance : ∀ a d, n.ancestorInfo = some ⟨a, d⟩ →
    ¬ Public dag o ∧ DistantParent dag commits a o ∧ HowMany d (Between dag.graph a o)
  descendants : ∀ c m, (⟨c, m⟩ : ChildInfo) ∈ n.descendants ↔
    m = false ∧ Shown dag commits c ∧ ¬ Public dag c ∧ DistantParent dag commits o c
  /-- The number of omitted descendants is given where nothing is shown above. -/
  omitted : HowMany n.numOmittedDescendants fun x =>
    (Public dag o → o ∈ dag.mainBranchCommit) ∧ n.children = [] ∧ n.descendants = [] ∧
      Anc dag.graph o x ∧ x ≠ o ∧ VisibleIn dag x

/-- What is known about the order in which sets are read: it is some order. -/
structure SmartlogSets (env : SmartlogEnv) : Prop where
  shuffle : ∀ l, (env.shuffle l).Perm l
  shuffleSet : ∀ l, (env.shuffleSet l).Perm l
  sortBy : ∀ cmp l, (env.sortBy cmp l).Perm l

/-- The commit of a line. -/
def commitOfItem : LineItem → Option Oid
  | .commit o _ _ _ => some o
  | _ => none

/-- The commits which have a line, from the top to the bottom. -/
def commitsOf (lines : List SmartlogLine) : List Oid := lines.filterMap fun l => commitOfItem l.2

/-- A line says the truth about its commit. -/
def LineTrue (dag : Dag) (head : Option Oid) : LineItem → Prop
  | .commit o isMain isObsolete isHead =>
    (isMain = true ↔ Public dag o) ∧ (isObsolete = true ↔ o ∈ dag.obsoleteCommits) ∧ (isHead = true ↔ head = some o)
  | _ => True

end Verif.Spec
