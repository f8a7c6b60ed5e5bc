import Verif.Model.Hide
import Verif.Model.Revset
import Verif.Model.Describe

/-!
`git query`: git-branchless-query/src/lib.rs. The progress meter and colours are not modelled, and errors of writing
the output neither.
-/

namespace Verif

/-- git-branchless-opts/src/lib.rs:283-300 `QueryArgs`; and `show_hidden_commits` (56). -/
structure QueryArgs where
  revset : Text
  showHidden : Bool
  showBranches : Bool
  raw : Bool

/-- What the command reads, besides the repository. -/
structure QueryEnv where
  revset : RevsetEnv
  fuel : Nat
  mainBranch : Text
  /-- The stored graph after the commits named by the query were added to it (`sync_from_oids`, resolve.rs:96-97 and
  eval.rs:164-174). -/
  synced : CommitGraph Oid
  describe : DescribeEnv

/-- How the command ends. -/
inductive QueryEnd where
  /-- An `eyre` error. -/
  | error
  /-- Exit code 1; the message is on the error stream (lib.rs:63-66). -/
  | unresolved (e : ResolveError)
  | done
deriving DecidableEq

/-- The lines on the output, and the end. -/
structure QueryOutcome where
  lines : List Text
  result : QueryEnd
deriving DecidableEq

/-- dag.rs:358-365 `sort`. The library looks up all the commits; one which is not in the graph is an error. -/
def dagSort (g : CommitGraph Oid) (s : List Oid) : Option (List Oid) :=
  if s.all g.nodes.contains then some (g.sort s) else none

/-- git/object.rs:173-197 `friendly_describe`, on one line. -/
def friendlyCommit (c : CommitText) : Text := c.shortOid ++ ' ' :: c.summary

/-- lib.rs:97-111: the loop; it ends with an error at a commit which is not found. -/
def printCommits (env : DescribeEnv) (raw : Bool) : List Oid → QueryOutcome
  | [] => ⟨[], .done⟩
  | o :: os =>
    let r := printCommits env raw os
    if raw then ⟨o.toText :: r.lines, r.result⟩
    else
      match env.commit o with
      | none => ⟨[], .error⟩
      | some c => ⟨friendlyCommit c :: r.lines, r.result⟩

/-- lib.rs:77-90: the names for the commits, as they are written. -/
def branchLines (refs : Replayer.RefsSnapshot) (oids : List Oid) : List Text :=
  (oids.flatMap fun o =>
    match refs.branchOidToNames.get? o with
    | some names => names.insertionSort (· ≤ ·)
    | none => []).map fun n => (categorize n).renderSuffix

/-- lib.rs:39-115 `query`. `graph` is the stored graph after it was synchronized with the references and the events
(lib.rs:53-59). If hidden commits are shown, another `Dag` is opened for the query (resolve.rs:80-88): commits which it
names are added to the graph of that one, and the sorting (lib.rs:74, 95) does not know them. -/
def query (env : QueryEnv) (args : QueryArgs) (graph : CommitGraph Oid) (w : RepoWorld) : QueryOutcome :=
  match w.git.referencesSnapshot env.mainBranch, openRepoDag graph env.mainBranch w with
  | some refs, some (_, d) =>
    match resolveCommits env.revset env.fuel { d with graph := env.synced } args.showHidden [args.revset] with
    | .error e => ⟨[], .unresolved e⟩
    | .ok sets =>
      let commits := sets.flatten
      let sortGraph := if args.showHidden then d.graph else env.synced
      if args.showBranches then
        match dagSort sortGraph (CommitGraph.inter commits d.branchCommits) with
        | none => ⟨[], .error⟩
        | some oids => ⟨branchLines refs oids, .done⟩
      else
        match dagSort sortGraph commits with
        | none => ⟨[], .error⟩
        | some oids => printCommits env.describe args.raw oids
  | _, _ => ⟨[], .error⟩

end Verif
