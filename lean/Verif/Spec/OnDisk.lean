import Verif.Model.OnDisk
import Verif.Spec.Execute

/-! When an on-disk rebase does the same as one in memory. -/

namespace Verif.Spec

open Verif

/-- The contents of an object: of one which exists, or of one which can be made. -/
def Known (ee : ExecEnv) (o : Oid) (d : CommitData) : Prop :=
  ee.commits o = some d ∨ ee.createCommit d = some o

/-- Two commits are the same, or two versions of the same commit, made at different times by different people: they
have the same tree, message and author, and so have their parents. -/
inductive SameCommit (ee : ExecEnv) : Oid → Oid → Prop
  | same (o : Oid) : SameCommit ee o o
  | versions (o o' : Oid) (d d' : CommitData) (p p' : Oid) : Known ee o d → Known ee o' d' →
      d.parents = [p] → d'.parents = [p'] → d.tree = d'.tree → d.message = d'.message →
      d.author = d'.author → SameCommit ee p p' → SameCommit ee o o'

/-- The same, for what becomes of a commit. -/
inductive SameFate (ee : ExecEnv) : Option MaybeZero → Option MaybeZero → Prop
  | stays : SameFate ee none none
  | dropped : SameFate ee (some .zero) (some .zero)
  | new (o o' : Oid) : SameCommit ee o o' → SameFate ee (some (.nonZero o)) (some (.nonZero o'))

/-- git picks commits like `cherry_pick_fast`: it finds the same trees (the change of a commit on top of its own
parent gives its own tree), which depend only on the tree of the commit on top of which it picks. The version of a
commit which git makes when nothing is left of the change is not by chance another commit of those which matter. -/
structure GitPicks (env : SeqEnv) (ee : ExecEnv) (matters : Oid → Prop) : Prop where
  agrees : ∀ c o d t, Known ee o d → ee.cherryPickFast c o = .ok t → env.pick c d.tree = .ok t
  own : ∀ c d p pd, ee.commits c = some d → d.parents = [p] → Known ee p pd → env.pick c pd.tree = .ok d.tree
  fresh : ∀ c orig d p pd o, ee.commits c = some orig → d.message = orig.message → d.author = orig.author →
    d.committer = env.user → ee.createCommit d = some o → d.parents = [p] → Known ee p pd → pd.tree = d.tree →
    matters o → o = c
  order : ∀ l, (env.shuffle l).Perm l

/-- The commands come in blocks: a commit is picked alone, and then it is looked whether it is empty. There are no
merges. -/
inductive Blocks : List RebaseCommand → Prop
  | nil : Blocks []
  | label (l : Text) (cs : List RebaseCommand) : Blocks cs → Blocks (.createLabel l :: cs)
  | reset (t : OidOrLabel) (cs : List RebaseCommand) : Blocks cs → Blocks (.reset t :: cs)
  | skip (c : Oid) (cs : List RebaseCommand) : Blocks cs → Blocks (.skipUpstreamAppliedCommit c :: cs)
  | register (cs : List RebaseCommand) : Blocks cs → Blocks (.registerExtraPostRewriteHook :: cs)
  | pick (c : Oid) (cs : List RebaseCommand) : Blocks cs → Blocks (.pick c [c] :: .detectEmptyCommit c :: cs)

/-- The plans for which the two ways are compared: every commit is handled once, and there is one; the plan begins with a commit on which
to start, and goes back by their ids only to commits which stay; the last command is the one which makes the
hook move branches. -/
structure DiskReady (ee : ExecEnv) (plan : RebasePlan) : Prop where
  start : plan.commands.head? = some (.reset (.oid plan.firstDestOid))
  blocks : Blocks plan.commands
  once : (handledCommits plan.commands).Nodup
  any : handledCommits plan.commands ≠ []
  resets : ∀ p, .reset (.oid p) ∈ plan.commands → p ∉ handledCommits plan.commands
  exist : ∀ c ∈ handledCommits plan.commands, (ee.commits c).isSome
  targets : ∀ p, .reset (.oid p) ∈ plan.commands → (ee.commits p).isSome
  registers : plan.commands.getLast? = some .registerExtraPostRewriteHook

/-- The commits which matter for the comparison: those of the branches, the one which is checked out, and those which are
moved. -/
def Matters (g : GitState) (plan : RebasePlan) (o : Oid) : Prop :=
  (∃ name, t!"refs/heads/" <+: name ∧ g.refs.get? name = some o) ∨ g.headInfo.oid = some o ∨
    o ∈ handledCommits plan.commands

/-- Nothing goes wrong at the end of the rebase: references can be written, the objects can be read, and the working copy
has no changes in the way of a checkout. -/
structure FinishWorks (ee : ExecEnv) (created : List (Oid × CommitData)) (env : FinishEnv) : Prop where
  accepts : ∀ name, t!"refs/heads/" <+: name → env.move.refuses name = false
  commits : ∀ o, (ee.find created o).isSome → env.move.isCommit o = true ∧ env.checkout.isCommit o = true
  upstream : ∃ u, env.move.upstreamTarget = .ok u
  checkout : env.checkout.works = true
  main : env.checkout.mainBranch = env.move.mainBranch

/-- Two repositories have the same branches at the same commits (or at two versions of the same commit), and the same
commit is checked out. -/
structure SameResult (ee : ExecEnv) (before a b : GitState) : Prop where
  branches : ∀ name, t!"refs/heads/" <+: name → Option.Rel (SameCommit ee) (a.refs.get? name) (b.refs.get? name)
  head : Option.Rel (SameCommit ee) a.headInfo.oid b.headInfo.oid
  /-- A branch which was checked out and still exists is checked out. -/
  on : ∀ name, before.head = .symbolic name → a.refs.get? name ≠ none →
    a.head = .symbolic name ∧ b.head = .symbolic name

end Verif.Spec
