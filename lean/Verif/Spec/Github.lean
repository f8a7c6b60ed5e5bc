import Verif.Model.Github
import Verif.Spec.Submit
import Verif.Spec.Revset

/-!
What `submit` should do with pull requests.
-/

namespace Verif.Spec

open Verif

/-- The upstream branch of the local branch `b` is the branch with this name on GitHub, as far as known. -/
structure TracksSame (w : ForgeWorld) (b : Text) : Prop where
  remote : w.repo.remote.get? b = some w.github
  merge : w.repo.merge.get? b = some (t!"refs/heads/" ++ b)
  tracked : ∃ u, w.repo.tracking.get? (w.github, t!"refs/heads/" ++ b) = some u

/-- The pull request `p` is there for the commit `o`: the local branch is at this commit. -/
structure HasPr (w : ForgeWorld) (o : Oid) (p : PullRequest) : Prop where
  mem : p ∈ w.prs
  at_ : BranchAt w.repo p.head o
  tracks : TracksSame w p.head

/-- `a` is below `o`, and not on the main branch. -/
structure BelowIn (env : ForgeEnv) (a o : Oid) : Prop where
  anc : Anc env.dag.graph a o
  ne : a ≠ o
  draft : ¬ Anc env.dag.graph a env.mainOid

/-- The usual circumstances: the branches which have an upstream branch have the one with the same name on
GitHub, and are pushed there; and GitHub knows the commits. -/
structure UsualForge (env : ForgeEnv) (w : ForgeWorld) : Prop where
  graph : WFGraph env.dag.graph
  refs : AMap.WF w.repo.refs
  notSelf : w.github ≠ t!"."
  upstream : ∀ b r m, w.repo.remote.get? b = some r → w.repo.merge.get? b = some m →
    r = w.github ∧ m = t!"refs/heads/" ++ b
  push : ∀ b r, w.repo.pushRemote b = some r → r = w.github
  heads : ∀ p ∈ w.prs, ∀ q ∈ w.prs, p.head = q.head → p = q
  numbers : ∀ p ∈ w.prs, ∀ q ∈ w.prs, p.number = q.number → p = q
  /-- The pull requests are open. -/
  open_ : ∀ p ∈ w.prs, ∃ h b, w.tip p.head = some h ∧ w.tip p.base = some b ∧ w.repo.isAncestor h b = false
  refl : ∀ o, w.repo.isAncestor o o = true
  ancestor : ∀ a b, b ∈ env.dag.graph.nodes → (w.repo.isAncestor a b = true ↔ Anc env.dag.graph a b)

/-! ### what a pull request should say -/

/-- The branch on which the pull request for `o` should be based: the one of the nearest commit below with a
pull request, or else the main branch. -/
def NearestBase (env : ForgeEnv) (w : ForgeWorld) (o : Oid) (base : Text) : Prop :=
  (∃ a p, BelowIn env a o ∧ HasPr w a p ∧ base = p.head ∧
      ∀ c q, BelowIn env c o → HasPr w c q → Anc env.dag.graph a c → c = a) ∨
    ((∀ a p, BelowIn env a o → ¬ HasPr w a p) ∧ base = env.mainName)

/-- The same with the commit which is farthest away. -/
def FarthestBase (env : ForgeEnv) (w : ForgeWorld) (o : Oid) (base : Text) : Prop :=
  (∃ a p, BelowIn env a o ∧ HasPr w a p ∧ base = p.head ∧
      ∀ c q, BelowIn env c o → HasPr w c q → Anc env.dag.graph c a → c = a) ∨
    ((∀ a p, BelowIn env a o → ¬ HasPr w a p) ∧ base = env.mainName)

/-- The pull requests of a stack, parents first. -/
structure StackPrs (env : ForgeEnv) (w : ForgeWorld) (o : Oid) (l : List (Oid × PullRequest)) : Prop where
  mem : ∀ c p, (c, p) ∈ l → InStack env.dag (· = o) c ∧ HasPr w c p
  all : ∀ c p, InStack env.dag (· = o) c → HasPr w c p → ∃ p', (c, p') ∈ l
  nodup : (l.map Prod.fst).Nodup
  sorted : (l.map Prod.fst).Pairwise fun a b => ¬ Anc env.dag.graph b a

/-- The title and the text for the pull request of `o`: its place in the stack and the first line of the
message; and the pull requests of the stack with the whole message. -/
def Wanted (env : ForgeEnv) (w : ForgeWorld) (o : Oid) (title body : Text) : Prop :=
  ∃ l number, StackPrs env w o l ∧
    ((∃ j, (l.map Prod.fst)[j]? = some o ∧ number = natToText (j + 1)) ∨
      (o ∉ l.map Prod.fst ∧ number = t!"?")) ∧
    title = t!"[" ++ number ++ t!"/" ++ natToText l.length ++ t!"] " ++ env.summary o ∧
    body = t!"**Stack:**\n\n" ++ (l.map fun e => t!"* " ++ e.2.url ++ t!"\n").flatten ++
      t!"\n\n---\n\n" ++ env.message o ++ t!"\n"

/-! ### the status -/

/-- The branch which counts at a commit is the last one, in the order in which git lists the branches. -/
def Counts (w : ForgeWorld) (b : Text) (o : Oid) : Prop :=
  BranchAt w.repo b o ∧ ∀ b', BranchAt w.repo b' o → b' ≠ b →
    [t!"refs/heads/" ++ b', t!"refs/heads/" ++ b].Sublist (w.repo.refs.map Prod.fst)

/-- The pull request has the commit on GitHub, and says what it should. -/
structure PrCurrent (env : ForgeEnv) (w : ForgeWorld) (o : Oid) (p : PullRequest) : Prop where
  tip : w.tip p.head = some o
  base : p.base = (desiredPr env w.repo w.prs o).base
  title : p.title = (desiredPr env w.repo w.prs o).title
  body : p.body = (desiredPr env w.repo w.prs o).body

/-- The commit is not submitted: the branch which counts has no pull request, or there is no branch. -/
def NotSubmitted (w : ForgeWorld) (o : Oid) : Prop :=
  ∀ b p, Counts w b o → HasPr w o p → p.head ≠ b

/-- The pull request of the commit is not as it should be. -/
def NeedsWork (env : ForgeEnv) (w : ForgeWorld) (o : Oid) (b : Text) : Prop :=
  Counts w b o ∧ ∃ p, HasPr w o p ∧ p.head = b ∧ ¬ PrCurrent env w o p

/-- The pull request of the commit is as it should be. -/
def InOrder (env : ForgeEnv) (w : ForgeWorld) (o : Oid) (b : Text) : Prop :=
  Counts w b o ∧ ∃ p, HasPr w o p ∧ p.head = b ∧ PrCurrent env w o p

/-! ### updating -/

/-- The commits with their branches which are to be updated, parents first. -/
structure Jobs (env : ForgeEnv) (w : ForgeWorld) (K : List (Oid × Text)) : Prop where
  at_ : ∀ e ∈ K, BranchAt w.repo e.2 e.1
  tracks : ∀ e ∈ K, TracksSame w e.2
  pr : ∀ e ∈ K, ∃ p ∈ w.prs, p.head = e.2
  notMain : ∀ e ∈ K, e.2 ≠ env.mainName
  node : ∀ e ∈ K, e.1 ∈ env.dag.graph.nodes
  sorted : K.Pairwise fun e f => ¬ Anc env.dag.graph f.1 e.1

/-- The remote and `gh` do what they are told: what the remote has is known, so that the lease is valid. -/
structure Willing (env : ForgeEnv) (w : ForgeWorld) (K : List (Oid × Text)) : Prop where
  reachable : w.repo.reachable w.github = true
  lease : ∀ e ∈ K, w.tip e.2 = some e.1 ∨
    (w.repo.tracking.get? (w.github, t!"refs/heads/" ++ e.2) = w.tip e.2 ∧
      w.repo.accepts w.github (t!"refs/heads/" ++ e.2) = true)
  edits : ∀ n b t x, w.allows (.editPr n b t x) = true
  main : ∃ m, w.tip env.mainName = some m

/-- No pull request gets a base branch which has its commits already. -/
structure Undisturbed (env : ForgeEnv) (w : ForgeWorld) (K : List (Oid × Text)) : Prop where
  /-- If the base branch of a pull request is to be moved above the commit of the pull request, then this is
  updated, too, and its commit stays the same. -/
  old : ∀ p ∈ w.prs, ∀ h k, w.tip p.head = some h → (k, p.base) ∈ K → w.repo.isAncestor h k = true →
    (h, p.head) ∈ K
  /-- The new commits are not on the old base branches. -/
  new : ∀ e ∈ K, w.tip e.2 ≠ some e.1 → ∀ p ∈ w.prs, p.head = e.2 → ∀ B, w.tip p.base = some B →
    w.repo.isAncestor e.1 B = false
  /-- They are not on the main branch of GitHub. -/
  main : ∀ e ∈ K, ∀ B, w.tip env.mainName = some B → w.repo.isAncestor e.1 B = false
  /-- They are not on the branches of the commits below which are not updated. -/
  below : ∀ e ∈ K, ∀ a p, BelowIn env a e.1 → HasPr w a p → (a, p.head) ∉ K → ∀ B, w.tip p.head = some B →
    w.repo.isAncestor e.1 B = false

/-- `w'` is `w` after the pull requests for `K` were updated, and nothing else. -/
structure Updated (env : ForgeEnv) (w : ForgeWorld) (K : List (Oid × Text)) (w' : ForgeWorld) : Prop where
  refs : w'.repo.refs = w.repo.refs
  config : w'.repo.remote = w.repo.remote ∧ w'.repo.merge = w.repo.merge
  /-- The branches are pushed. -/
  pushed : ∀ e ∈ K, w'.tip e.2 = some e.1
  /-- The other branches of the remotes stay where they are. -/
  others : ∀ r x, (∀ e ∈ K, (r, x) ≠ (w.github, t!"refs/heads/" ++ e.2)) →
    w'.repo.remotes.get? (r, x) = w.repo.remotes.get? (r, x)
  /-- The same pull requests are open. Those of the commits are edited. -/
  prs : List.Forall₂ (fun p p' =>
    (∀ o, (o, p.head) ∈ K → p' = { p with
      base := (desiredPr env w.repo w.prs o).base
      title := (desiredPr env w.repo w.prs o).title
      body := (desiredPr env w.repo w.prs o).body }) ∧
    ((∀ o, (o, p.head) ∉ K) → p' = p)) w.prs w'.prs

/-! ### creating -/

/-- The names which the branch for a commit which is not submitted may get: the branch is there, or it is made
from the first line of the message. -/
def Candidate (env : ForgeEnv) (w : ForgeWorld) (user : Text) (o : Oid) (b : Text) : Prop :=
  Counts w b o ∨
    ((∀ b', ¬ BranchAt w.repo b' o) ∧
      ∃ base, base = user ++ t!"/" ++ summarySlug env (env.summary o) ∧
        (b = base ∨ ∃ i, 2 ≤ i ∧ i ≤ 5 ∧ b = base ++ t!"-" ++ natToText i))

/-- What is to be there if pull requests are created. -/
structure CreateSetup (env : ForgeEnv) (w : ForgeWorld) (set : List Oid) (user : Text) : Prop where
  name : env.username = some user
  remote : w.repo.defaultPushRemote env.mainName = some w.github
  gh : env.ghRemote = none ∨ env.ghRemote = some w.github
  main : ∃ m, BranchAt w.repo env.mainName m
  default : ∃ m, w.tip w.defaultBranch = some m
  numbers : ∀ p ∈ w.prs, p.number < w.next
  /-- No pull request has one of the new branches. -/
  free : ∀ o ∈ set, NotSubmitted w o → ∀ b, Candidate env w user o b → ∀ p ∈ w.prs, p.head ≠ b ∧ p.base ≠ b
  /-- The new commits are not on the main branch of GitHub. -/
  onMain : ∀ o ∈ set, NotSubmitted w o → ∀ B, w.tip env.mainName = some B → w.repo.isAncestor o B = false
  /-- They are not on the branches of the commits below. -/
  below : ∀ o ∈ set, NotSubmitted w o → ∀ a p, BelowIn env a o → HasPr w a p → ∀ B, w.tip p.head = some B →
    w.repo.isAncestor o B = false

end Verif.Spec
