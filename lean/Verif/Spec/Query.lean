import Verif.Model.Query
import Verif.Spec.Hide
import Verif.Spec.Revset

/-! What `git query` should print. -/

namespace Verif.Spec

open Verif

/-- `os` are the commits of the set `S`, each once, none before one of its ancestors. -/
structure Listing (g : CommitGraph Oid) (S : Oid → Prop) (os : List Oid) : Prop where
  once : os.Nodup
  all : ∀ o, o ∈ os ↔ S o
  order : ParentsFirst g os

/-- `lines` are the names of the local branches at the commits of the set `S`: each once, those of a commit before
those of its descendants, and those of the same commit in alphabetical order. -/
structure BranchListing (g : CommitGraph Oid) (refs : Refs) (S : Oid → Prop) (lines : List Text) : Prop where
  once : lines.Nodup
  all : ∀ n, n ∈ lines ↔ ∃ o, refs.get? (t!"refs/heads/" ++ n) = some o ∧ S o
  order : lines.Pairwise fun n m => ∀ a b, refs.get? (t!"refs/heads/" ++ n) = some a →
    refs.get? (t!"refs/heads/" ++ m) = some b → (a = b ∧ n ≤ m) ∨ (a ≠ b ∧ ¬ Anc g b a)

/-- The line for a commit which is found: its abbreviated id and the first line of its message. -/
def DescribedBy (env : DescribeEnv) (o : Oid) (line : Text) : Prop :=
  ∃ c, env.commit o = some c ∧ line = c.shortOid ++ t!" " ++ c.summary

/-- The command is run with these arguments, in a repository whose graph of commits has been updated. `d` is what
is known about the commits; hidden ones are forgotten to be hidden if they are asked for. -/
structure QuerySetting (env : QueryEnv) (args : QueryArgs) (graph : CommitGraph Oid) (w : RepoWorld)
    (es : List Event) (d : Dag) : Prop where
  refs : AMap.WF w.git.refs
  events : w.db.getEvents = some es
  replayer : env.revset.replayer = Replayer.fromEvents env.mainBranch es
  opened : ∃ r d₀, openRepoDag graph env.mainBranch w = some (r, d₀) ∧
    d = { d₀ with
          graph := env.synced
          obsoleteCommits := if args.showHidden then [] else d₀.obsoleteCommits }
  hg : WFGraph env.synced
  /-- The commits which the query added come on top of those which were known. -/
  added : ∃ new, env.synced = ⟨new ++ graph.entries⟩
  /-- The commits of branches are known. -/
  branches : ∀ n o, w.git.refs.get? (t!"refs/heads/" ++ n) = some o → o ∈ graph.nodes
  /-- The commits named by the query were added. -/
  named : ∀ S, Resolves env.revset d args.revset S → ∀ o, S o → o ∈ env.synced.nodes

end Verif.Spec
