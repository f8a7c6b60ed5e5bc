import Verif.Model.Plan
import Verif.Spec.Dag
import Mathlib.Logic.Relation
import Mathlib.Data.List.Chain

/-! What a rebase plan is about: the requested edges, the commits a command handles, its labels. -/

namespace Verif.Spec

open Verif

/-- The request says: `c` is put on top of `p`. -/
def Moves (k : Constraints) (p c : Oid) : Prop := ∃ cs, AMap.get? k.inner p = some cs ∧ c ∈ cs

/-- No commit is, over some steps, put on top of itself. -/
def Acyclic (k : Constraints) : Prop := ∀ c, ¬ Relation.TransGen (Moves k) c c

/-- The original commit for which a command makes a new commit, or which it drops. -/
def handled : RebaseCommand → Option Oid
  | .pick c _ => some c
  | .merge c _ => some c
  | .replace c _ _ => some c
  | .skipUpstreamAppliedCommit c => some c
  | .createLabel _ | .reset _ | .break | .registerExtraPostRewriteHook | .detectEmptyCommit _ => none

/-- The original commits which the commands handle, in order. -/
def handledCommits (cs : List RebaseCommand) : List Oid := cs.filterMap handled

def labelOf : OidOrLabel → Option Text
  | .oid _ => none
  | .label l => some l

/-- The labels a command refers to. -/
def labelsUsed : RebaseCommand → List Text
  | .reset t => [t].filterMap labelOf
  | .merge _ ps => ps.filterMap labelOf
  | .replace _ _ ps => ps.filterMap labelOf
  | _ => []

/-- The label a command registers. -/
def labelCreated : RebaseCommand → Option Text
  | .createLabel l => some l
  | _ => none

def labelsCreated (cs : List RebaseCommand) : List Text := cs.filterMap labelCreated

/-- A merge commit. -/
def IsMerge (env : PlanEnv) (c : Oid) : Prop := 1 < (env.parentOids c).length

/-- A commit which gets a new version: it is moved, or others are squashed into it. -/
def Rewritten (k : Constraints) (c : Oid) : Prop :=
  (∃ p, Moves k p c) ∨ ∃ fs, AMap.get? k.fixups c = some fs

/-- The requests which the planner is made for: a commit which is no merge is put on top of one
commit; a merge commit stays on top of those of its own parents which get new versions. -/
structure Regular (env : PlanEnv) (k : Constraints) : Prop where
  one_parent : ∀ c p q, ¬ IsMerge env c → Moves k p c → Moves k q c → p = q
  merge_from : ∀ c p, IsMerge env c → Moves k p c → Rewritten k p → p ∈ env.parentOids c
  merge_on : ∀ c p, IsMerge env c → Rewritten k c → p ∈ env.parentOids c → Rewritten k p →
    Moves k p c ∧ ∃ q, Moves k q p

/-- Commits are squashed into others. -/
def Squashed (k : Constraints) (c : Oid) : Prop := ∃ t fs, AMap.get? k.fixups t = some fs ∧ c ∈ fs

/-- Requests to move the first commit, with its descendants, on top of the second. The last request
for a commit counts. -/
def LastRequest (rs : List (Oid × Oid)) (c dest : Oid) : Prop :=
  ∃ pre post, rs = pre ++ (c, dest) :: post ∧ c ∉ post.map Prod.fst

/-- What the requests amount to: a requested commit goes to its destination, and a visible
descendant of a requested commit goes along, on top of its own parents. -/
def ShouldMove (dag : Dag) (rs : List (Oid × Oid)) (p c : Oid) : Prop :=
  LastRequest rs c p ∨
  (c ∉ rs.map Prod.fst ∧ (∃ s ∈ rs.map Prod.fst, Anc dag.graph s c) ∧
    (∃ h ∈ dag.visibleHeads, Anc dag.graph c h) ∧ IsParent dag.graph p c)

/-- A public commit: an ancestor of the main branch. -/
def Public (dag : Dag) (c : Oid) : Prop := ∃ m ∈ dag.mainBranchCommit, Anc dag.graph c m

/-- A best common ancestor. -/
def IsMergeBase (g : CommitGraph Oid) (a b m : Oid) : Prop :=
  m ∈ g.nodes ∧ Anc g m a ∧ Anc g m b ∧ ∀ x, x ∈ g.nodes → Anc g x a → Anc g x b → Anc g m x → x = m

/-- `u` is on the way from a merge base of `root` and the destinations to a destination (ends
included), and makes the same change as `c`. -/
structure Twin (env : PlanEnv) (root : Oid) (dests : Oid → Prop) (c u : Oid) : Prop where
  base : ∃ d m, dests d ∧ IsMergeBase env.dag.graph root d m ∧ Anc env.dag.graph m u
  above : ∃ d, dests d ∧ Anc env.dag.graph u d
  no_merge : ¬ IsMerge env u ∧ ¬ IsMerge env c
  same : env.patchId u = env.patchId c

/-- The places where commits are put on top of commits which stay: `root` on `dests`. -/
def RootEdge (env : PlanEnv) (k : Constraints) (root : Oid) (dests : Oid → Prop) : Prop :=
  (∃ dest, Moves k dest root ∧ ¬ Rewritten k dest ∧ ∀ d, dests d ↔ d = dest) ∨
  ((∃ fs, AMap.get? k.fixups root = some fs) ∧ (¬ ∃ p, Moves k p root) ∧
    ∀ d, dests d ↔ d ∈ env.parentOids root)

end Verif.Spec
