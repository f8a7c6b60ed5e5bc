import Verif.Model.Hide

/-!
Sorting sets of commits (`sorted_commit_set`), and walking along a stack with `git next` and `git prev`.
Model of git-branchless-navigation/src/lib.rs.
-/

namespace Verif

/-- dag.rs:766-797: the comparison. `time` is the committer's time: the seconds, and then the time zone
(the order of `git2::Time`), as one number. Errors of `query_is_ancestor` are not modelled. -/
def commitCompare (d : Dag) (time : Oid → Nat) (a b : Oid) : Ordering :=
  if d.graph.isAncestor a b then .lt
  else if d.graph.isAncestor b a then .gt
  else (compare (time a) (time b)).then (compare a.val b.val)

/-- What navigation reads. -/
structure NavEnv where
  /-- dag.rs:369-383 `commit_set_to_vec`: the members of a set in some order. -/
  toVec : List Oid → List Oid
  /-- `find_commit` finds the commit. -/
  existing : Oid → Bool
  time : Oid → Nat
  /-- Rust's `sort_by`, whose result is not specified if the comparison is not a total order. -/
  sortBy : (Oid → Oid → Ordering) → List Oid → List Oid
  /-- prompt.rs:11 `prompt_select_commit`, when it is asked after this number of steps: the index of the
  selected commit, nothing if the user cancelled, or an error. -/
  prompt : Nat → List Oid → Except Unit (Option Nat)
  /-- `branchless.next.interactive` -/
  nextInteractive : Bool

/-- dag.rs:745-800 `sorted_commit_set`. -/
def sortedCommitSet (env : NavEnv) (d : Dag) (s : List Oid) : List Oid :=
  env.sortBy (commitCompare d env.time) ((env.toVec s).filter env.existing)

/-- lib.rs:46-52 `Command`. -/
inductive NavCommand where
  | next
  | prev
deriving DecidableEq

/-- lib.rs:56-71 `Distance`. -/
inductive Distance where
  | numCommits (amount : Nat) (moveByBranches : Bool)
  | allTheWay (moveByBranches : Bool)
deriving DecidableEq

/-- lib.rs:77-87 `Towards`. -/
inductive Towards where
  | newest
  | oldest
  | interactive
deriving DecidableEq

/-- lib.rs:119-123 `child_commits`. -/
def childCommits (d : Dag) (cur : Oid) : List Oid := d.filterVisibleCommits (d.graph.children [cur])

/-- lib.rs:125-131 `descendant_branches`. -/
def descendantBranches (d : Dag) (cur : Oid) : List Oid :=
  let commits := d.graph.descendants (childCommits d cur)
  let branches := CommitGraph.inter d.branchCommits commits
  d.graph.roots (d.graph.descendants branches)

/-- lib.rs:155-158 `parent_commits`. -/
def parentCommits (d : Dag) (cur : Oid) : List Oid := d.graph.parents [cur]

/-- lib.rs:159-164 `ancestor_branches`. -/
def ancestorBranches (d : Dag) (cur : Oid) : List Oid :=
  let commits := d.graph.ancestors (parentCommits d cur)
  d.graph.headsAncestors (CommitGraph.inter d.branchCommits commits)

/-- lib.rs:117-200: the set of the commits to go to. -/
def candidateSet (d : Dag) (command : NavCommand) (distance : Distance) (cur : Oid) : List Oid :=
  match command, distance with
  | .next, .allTheWay false | .next, .numCommits _ false => childCommits d cur
  | .next, .allTheWay true | .next, .numCommits _ true => descendantBranches d cur
  | .prev, .allTheWay false => CommitGraph.diff (parentCommits d cur) d.publicCommits
  | .prev, .allTheWay true => CommitGraph.diff (ancestorBranches d cur) d.publicCommits
  | .prev, .numCommits _ false => parentCommits d cur
  | .prev, .numCommits _ true => ancestorBranches d cur

/-- lib.rs:202-219: whether to stop here. -/
def arrived (distance : Distance) (i : Nat) (candidates : List Oid) : Bool :=
  match distance with
  | .numCommits amount _ => i = amount
  | .allTheWay _ => candidates.isEmpty

/-- lib.rs:239-301: where to go. -/
inductive NavChoice where
  | go (oid : Oid)
  /-- There is nothing to go to. -/
  | stuck
  /-- It is ambiguous, or the user cancelled. -/
  | giveUp
  | error
deriving DecidableEq

/-- lib.rs:239-301: where to go, after `i` steps. -/
def navChoose (env : NavEnv) (towards : Option Towards) (i : Nat) (candidates : List Oid) : NavChoice :=
  match towards, candidates with
  | _, [] => .stuck
  | _, [only] => .go only
  | some .newest, a :: b :: rest => .go ((a :: b :: rest).getLast (by simp))
  | some .oldest, a :: _ :: _ => .go a
  | some .interactive, a :: b :: rest =>
    match env.prompt i (a :: b :: rest) with
    | .error _ => .error
    | .ok none => .giveUp
    | .ok (some j) =>
      match (a :: b :: rest)[j]? with
      | some oid => .go oid
      | none => .error
  | none, _ :: _ :: _ => .giveUp

/-- How `advance` can fail. -/
inductive NavFail where
  | error
  /-- The bound on the number of rounds was reached; `advance_terminates` shows that this does not
  happen. -/
  | fuel
deriving DecidableEq

/-- lib.rs:116-304: the loop. -/
def advanceLoop (env : NavEnv) (d : Dag) (command : NavCommand) (distance : Distance)
    (towards : Option Towards) : Nat → Nat → Oid → Except NavFail (Option Oid)
  | 0, _, _ => .error .fuel
  | fuel + 1, i, cur =>
    let candidates := sortedCommitSet env d (candidateSet d command distance cur)
    if arrived distance i candidates then .ok (some cur)
    else
      match navChoose env towards i candidates with
      | .stuck => .ok (if i = 0 then none else some cur)
      | .giveUp => .ok none
      | .error => .error .error
      | .go next => advanceLoop env d command distance towards fuel (i + 1) next

/-- lib.rs:100-109: the preference. -/
def effectiveTowards (env : NavEnv) (towards : Option Towards) : Option Towards :=
  match towards with
  | some t => some t
  | none => if env.nextInteractive then some .interactive else none

/-- lib.rs:90-306 `advance`; nothing if the command should fail. -/
def advance (env : NavEnv) (d : Dag) (cur : Oid) (command : NavCommand) (distance : Distance)
    (towards : Option Towards) : Except NavFail (Option Oid) :=
  advanceLoop env d command distance (effectiveTowards env towards) (d.graph.nodes.length + 2) 0 cur

/-- `TraverseCommitsOptions`, without `merge` and `force`. -/
structure TraverseOptions where
  numCommits : Option Nat
  allTheWay : Bool
  moveByBranches : Bool
  oldest : Bool
  newest : Bool
  interactive : Bool

/-- lib.rs:327-343. -/
def TraverseOptions.distance (o : TraverseOptions) : Option Distance :=
  match o.allTheWay, o.numCommits with
  | false, none => some (.numCommits 1 o.moveByBranches)
  | false, some amount => some (.numCommits amount o.moveByBranches)
  | true, none => some (.allTheWay o.moveByBranches)
  | true, some _ => none

/-- lib.rs:345-353. -/
def TraverseOptions.towards (o : TraverseOptions) : Option (Option Towards) :=
  match o.oldest, o.newest, o.interactive with
  | false, false, false => some none
  | true, false, false => some (some .oldest)
  | false, true, false => some (some .newest)
  | false, false, true => some (some .interactive)
  | _, _, _ => none

/-- lib.rs:411-444: what is checked out. -/
def traverseTarget (distance : Distance) (refs : Refs) (oid : Oid) : CheckoutTarget :=
  match distance with
  | .allTheWay false | .numCommits _ false => .oid oid
  | .allTheWay true | .numCommits _ true =>
    match namesAt refs oid with
    | [name] => .reference name
    | _ => .oid oid

/-- How `next` and `prev` end. -/
inductive TraverseOutcome where
  /-- An `eyre` error. -/
  | error
  /-- Exit code 1 of `advance`. -/
  | failed
  /-- The exit code of `git checkout` was not 0. -/
  | checkoutFailed
  | done
deriving DecidableEq

/-- lib.rs:310-468 `traverse_commits`. The transaction id, which is made and not used, is left out (its
only use is for git's hooks). -/
def traverseCommits (env : NavEnv) (checkout : CheckoutEnv) (graph : CommitGraph Oid) (w : RepoWorld)
    (command : NavCommand) (options : TraverseOptions) : GitState × TraverseOutcome :=
  match options.distance, options.towards with
  | some distance, some towards =>
    match openRepoDag graph checkout.mainBranch w with
    | none => (w.git, .error)
    | some (_, d) =>
      match w.git.headInfo.oid with
      | none => (w.git, .error)
      | some head =>
        match advance env d head command distance towards with
        | .error _ => (w.git, .error)
        | .ok none => (w.git, .failed)
        | .ok (some oid) =>
          match checkOutCommit checkout w.git (traverseTarget distance w.git.refs oid) with
          | .error _ => (w.git, .error)
          | .ok (git, true) => (git, .done)
          | .ok (git, false) => (git, .checkoutFailed)
  | _, _ => (w.git, .error)

end Verif
