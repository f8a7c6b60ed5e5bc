import Verif.Model.Switch
import Verif.Spec.Navigate
import Verif.Spec.Revset

/-! Where `git switch` should go: in terms of the references, revisions and sets of commits. -/

namespace Verif.Spec

open Verif

/-- The branch of this short name is at the commit, and no other branch is. -/
def OnlyBranch (g : GitState) (o : Oid) (b : Text) : Prop :=
  g.refs.get? (t!"refs/heads/" ++ b) = some o ∧
    ∀ name, IsBranch name → g.refs.get? name = some o → name = t!"refs/heads/" ++ b

/-- A commit of the set of which no child is in the set. -/
def HeadOf (graph : CommitGraph Oid) (S : Oid → Prop) (c : Oid) : Prop :=
  S c ∧ ∀ x, IsParent graph c x → ¬ S x

/-- What git is told to check out (nothing, or a revision), and the commit where `HEAD` should be
afterwards. -/
inductive SwitchTo (env : SwitchEnv) (d : Dag) (g : GitState) (smartlog : List Oid) (options : SwitchOptions) :
    Option Text → Option Oid → Prop
  /-- Nothing is given: stay at the commit. -/
  | stay : options.interactive = false → options.target = none →
      (env.checkout.autoSwitch = false ∨ ∀ o b, g.headInfo.oid = some o → ¬ OnlyBranch g o b) →
      SwitchTo env d g smartlog options none g.headInfo.oid
  /-- Nothing is given: to the only branch at the commit. -/
  | ontoBranch {o b} : options.interactive = false → options.target = none → env.checkout.autoSwitch = true →
      g.headInfo.oid = some o → OnlyBranch g o b → SwitchTo env d g smartlog options (some b) (some o)
  /-- A revision is given. -/
  | revision {t o} : options.interactive = false → options.target = some t → env.revset.revparse t = some o →
      SwitchTo env d g smartlog options (some t) (some o)
  /-- A set of commits with one head is given. -/
  | revset {t S o} : options.interactive = false → options.target = some t → env.revset.revparse t = none →
      Resolves env.revset d t S → (∀ c, HeadOf d.graph S c ↔ c = o) →
      SwitchTo env d g smartlog options (some o.toText) (some o)
  /-- The user selected a commit. -/
  | selected {o} : options.interactive = true →
      env.select (options.target.getD []) smartlog = .ok (some o) →
      (env.checkout.autoSwitch = false ∨ g.headInfo.oid = some o ∨ ∀ b, ¬ OnlyBranch g o b) →
      SwitchTo env d g smartlog options (some o.toText) (some o)
  /-- The user selected a commit with one branch. -/
  | selectedBranch {o b} : options.interactive = true →
      env.select (options.target.getD []) smartlog = .ok (some o) →
      env.checkout.autoSwitch = true → g.headInfo.oid ≠ some o → OnlyBranch g o b →
      SwitchTo env d g smartlog options (some b) (some o)

/-- The options for git. -/
def switchFlags (options : SwitchOptions) : List Text :=
  (options.branchName.toList.flatMap fun b => [t!"-b", b]) ++
    [(options.force, t!"--force"), (options.merge, t!"--merge"), (options.detach, t!"--detach")].filterMap
      fun (given, text) => if given then some text else none

/-- The commit for which a revision stands, according to git: local branches first. -/
inductive GitMeans (env : GitCheckoutEnv) (g : GitState) : Text → Oid → Prop
  | branch {t o} : t ≠ t!"-" → g.refs.get? (t!"refs/heads/" ++ t) = some o → GitMeans env g t o
  | revision {t o} : t ≠ t!"-" → g.refs.get? (t!"refs/heads/" ++ t) = none → env.revision g t = some o →
      GitMeans env g t o
  | previousBranch {t o} : env.previous = some t → g.refs.get? (t!"refs/heads/" ++ t) = some o →
      GitMeans env g t!"-" o
  | previous {t o} : env.previous = some t → g.refs.get? (t!"refs/heads/" ++ t) = none →
      env.revision g t = some o → GitMeans env g t!"-" o

/-- The branch which a revision names, if it names one. -/
def GitBranch (env : GitCheckoutEnv) (g : GitState) (t b : Text) : Prop :=
  (g.refs.get? (t!"refs/heads/" ++ b)).isSome ∧
    ((t ≠ t!"-" ∧ t = b) ∨ (t = t!"-" ∧ env.previous = some b))

/-- Where `HEAD` is after checking out a revision which stands for a commit. -/
def HeadAfter (env : GitCheckoutEnv) (g : GitState) (options : SwitchOptions) (t : Option Text) (dest : Option Oid)
    (head : Head) : Prop :=
  match options.branchName with
  | some b => head = .symbolic (t!"refs/heads/" ++ b)
  | none =>
    if options.detach then ∃ o, dest = some o ∧ head = .detached o
    else
      match t with
      | none => head = g.head
      | some x =>
        (∀ b, GitBranch env g x b → head = .symbolic (t!"refs/heads/" ++ b)) ∧
        ((∀ b, ¬ GitBranch env g x b) → ∃ o, dest = some o ∧ head = .detached o)

/-- The situation of the command: the event log and the graph can be read, sets can be listed and sorted, and
commits which are named exist. -/
structure SwitchSetting (env : SwitchEnv) (graph : CommitGraph Oid) (w : RepoWorld) (es : List Event)
    (r : Replayer) (d : Dag) (smartlog : List Oid) : Prop where
  hg : WFGraph graph
  hw : AMap.WF w.git.refs
  he : w.db.getEvents = some es
  opened : openRepoDag graph env.checkout.mainBranch w = some (r, d)
  sorting : ∀ cmp l, (env.nav.sortBy cmp l).Perm l
  toVec : ∀ l, (env.nav.toVec l).Nodup ∧ ∀ x, x ∈ env.nav.toVec l ↔ x ∈ l
  existing : ∀ t S, Resolves env.revset d t S → ∀ x, S x → env.nav.existing x = true
  smartlog : env.smartlog = .ok smartlog
  replayer : env.revset.replayer = Replayer.fromEvents env.checkout.mainBranch es

/-- Git understands names as expected: an object id is that object, and there is no branch named like one; a
revision is the commit for which the commands of branchless take it (`Repo::revparse_single_commit`); names of
branches and the given target do not begin with a dash (but the target can be `-`). -/
structure NamesClear (env : SwitchEnv) (g : GitState) (options : SwitchOptions) : Prop where
  hex : ∀ o : Oid, g.refs.get? (t!"refs/heads/" ++ o.toText) = none
  oids : ∀ o o' : Oid, env.checkout.git.revision g o.toText = some o' → o' = o
  revisions : ∀ t o o', env.revset.revparse t = some o → GitMeans env.checkout.git g t o' → o' = o
  branches : ∀ b, (g.refs.get? (t!"refs/heads/" ++ b)).isSome → ¬ t!"-" <+: b
  target : ∀ t, options.target = some t → t = t!"-" ∨ ¬ t!"-" <+: t

end Verif.Spec
