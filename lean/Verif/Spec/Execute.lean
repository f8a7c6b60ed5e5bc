import Verif.Model.Execute
import Verif.Spec.Plan

/-! What the execution of a rebase plan should do. -/

namespace Verif.Spec

open Verif

/-- The commit on top of which the request puts `c`: the requested one; a commit which is not moved,
but into which others are squashed, stays on its first parent. -/
def Base (env : PlanEnv) (k : Constraints) (c p : Oid) : Prop :=
  Moves k p c ∨ ((∃ fs, AMap.get? k.fixups c = some fs) ∧ (¬ ∃ q, Moves k q c) ∧
    (env.parentOids c).head? = some p)

/-- Where the commits on top of `c` go, given the commits recorded as rewritten: to `c` itself if it
is not rewritten; else to its new version; if it was dropped (or squashed into another one), to the
place on top of which it would have been. -/
inductive EndsAt (env : PlanEnv) (k : Constraints) (rewritten : AMap Oid MaybeZero) :
    Oid → Oid → Prop
  | stays (c : Oid) : ¬ Rewritten k c → EndsAt env k rewritten c c
  | new (c n : Oid) : Rewritten k c → ¬ Squashed k c → AMap.get? rewritten c = some (.nonZero n) →
      EndsAt env k rewritten c n
  | dropped (c p q : Oid) : ¬ Squashed k c → AMap.get? rewritten c = some .zero → Base env k c p →
      EndsAt env k rewritten p q → EndsAt env k rewritten c q
  | squashed (c p q : Oid) : Squashed k c → Base env k c p → EndsAt env k rewritten p q →
      EndsAt env k rewritten c q

/-- All the commits which the plan goes back to by their original id exist at that time: they are not
rewritten, or their new version has been made before. -/
def ResetsReady (k : Constraints) (cmds : List RebaseCommand) (rewritten : AMap Oid MaybeZero) : Prop :=
  ∀ pre p post, cmds = pre ++ .reset (.oid p) :: post →
    ¬ Squashed k p ∧
    (Rewritten k p → p ∈ handledCommits pre ∧ AMap.get? rewritten p ≠ some .zero)

/-- The commits on top of which the replacement `r` of `c` is put (or on top of their new versions): its own
parents, but if `c` is a merge commit, the parents of `c`. -/
def newParents (env : PlanEnv) (c r : Oid) : List Oid :=
  if 1 < (env.parentOids c).length then env.parentOids c else env.replacementParentOids r

/-- Replaced commits are put where they are requested to be: if one of the parents gets a new version, then the
request is to put the commit on top of it. -/
def ReplacedOnParents (b : RebasePlanBuilder) (k : Constraints) : Prop :=
  ∀ c r, AMap.get? b.replacementCommits c = some r → Rewritten k c →
    ∀ p ∈ newParents b.env c r, Rewritten k p → Moves k p c

/-- Different contents have different object ids. (Only for the contents which occur:
`createCommit` may be undefined for others.) -/
structure NoCollisions (ee : ExecEnv) : Prop where
  old : ∀ d d' o, ee.createCommit d = some o → ee.commits o = some d' → d' = d
  new : ∀ d d' o, ee.createCommit d = some o → ee.createCommit d' = some o → d' = d

/-- The tree which results from applying commits one after the other: the first is cherry-picked onto
`q`, and each further one is added to the commit made so far. `mk` is the new commit with a given tree. -/
inductive Applied (ee : ExecEnv) (q : Oid) (mk : Nat → CommitData) : List Oid → Nat → Prop
  | first (c : Oid) (t : Nat) : ee.cherryPickFast c q = .ok t → Applied ee q mk [c] t
  | next (l : List Oid) (t : Nat) (o c : Oid) (t' : Nat) : Applied ee q mk l t →
      ee.createCommit (mk t) = some o → ee.amendFast o c = .ok t' → Applied ee q mk (l ++ [c]) t'

/-- The new version of a commit on top of `q`: everything but the parents, the tree and the time is
that of the original. -/
def newVersion (ee : ExecEnv) (orig : CommitData) (q : Oid) (tree : Nat) : CommitData :=
  ⟨[q], tree, orig.message, orig.author, orig.committer, ee.newTime orig.time⟩

/-- What becomes of the commit which a command handles. -/
def CommandDone (env : PlanEnv) (k : Constraints) (ee : ExecEnv) (s : ExecState) :
    RebaseCommand → Prop
  | .pick c l => ∃ p q, Base env k c p ∧ EndsAt env k s.rewritten p q ∧
      ∃ tree base orig, ee.find s.created q = some base ∧ ee.find s.created c = some orig ∧
        Applied ee q (newVersion ee orig q) l tree ∧
        if tree = base.tree then AMap.get? s.rewritten c = some .zero
        else ∃ n, AMap.get? s.rewritten c = some (.nonZero n) ∧
          (n, newVersion ee orig q tree) ∈ s.created
  | .replace c r _ => ∃ n ps rep, AMap.get? s.rewritten c = some (.nonZero n) ∧
      List.Forall₂ (EndsAt env k s.rewritten) (newParents env c r) ps ∧
      ee.find s.created r = some rep ∧
      (n, ⟨ps, rep.tree, rep.message, rep.author, rep.committer, ee.newTime rep.time⟩) ∈ s.created
  | .skipUpstreamAppliedCommit c => (∃ p q, Base env k c p ∧ EndsAt env k s.rewritten p q) ∧
      (¬ Squashed k c → AMap.get? s.rewritten c = some .zero)
  | _ => True

/-- Where the commits on top of `c` go if nothing is squashed: to `c` itself if it is not moved; to its
new version if there is one; if it was dropped, to where the commits on top of its destination go. -/
inductive Lands (moves : Oid → Oid → Prop) (rewritten : AMap Oid MaybeZero) : Oid → Oid → Prop
  | stays (c : Oid) : (¬ ∃ p, moves p c) → Lands moves rewritten c c
  | new (p c n : Oid) : moves p c → AMap.get? rewritten c = some (.nonZero n) →
      Lands moves rewritten c n
  | dropped (p c q : Oid) : moves p c → AMap.get? rewritten c = some .zero →
      Lands moves rewritten p q → Lands moves rewritten c q

/-- The commits which are named in a command. -/
def mentions : RebaseCommand → List Oid
  | .reset (.oid p) => [p]
  | .reset (.label _) => []
  | .pick c l => c :: l
  | .merge c ps => c :: ps.filterMap fun | .oid p => some p | .label _ => none
  | .replace c r ps => c :: r :: ps.filterMap fun | .oid p => some p | .label _ => none
  | .skipUpstreamAppliedCommit c => [c]
  | .detectEmptyCommit _ | .createLabel _ | .break | .registerExtraPostRewriteHook => []

/-- The commit whose message is used by a command. -/
def messageFrom : RebaseCommand → List Oid
  | .pick c _ => [c]
  | .replace _ r _ => [r]
  | _ => []

/-- What is needed so that nothing but a merge can fail: the commits exist, the messages which are used can be
read, objects can be written, and a cherry-pick either works or is a conflict. -/
structure Works (ee : ExecEnv) (cmds : List RebaseCommand) : Prop where
  exist : ∀ cmd ∈ cmds, ∀ o ∈ mentions cmd, ∃ d, ee.commits o = some d
  message : ∀ cmd ∈ cmds, ∀ o ∈ messageFrom cmd, ∀ d, ee.commits o = some d → d.message.isSome
  write : ∀ d, (ee.createCommit d).isSome
  pick : ∀ a c, ee.cherryPickFast a c ≠ .error .other
  amend : ∀ a c, ee.amendFast a c ≠ .error .other

/-- A truthful report of a failed merge. -/
def HonestFailure (ee : ExecEnv) (cmds : List RebaseCommand) : FailedMergeInfo → Prop
  | .conflict c paths => (∃ q, ee.cherryPickFast c q = .error (.conflict paths)) ∨
      ∃ n, ee.amendFast n c = .error (.conflict paths)
  | .cannotRebaseMergeInMemory c => (∃ ps, .merge c ps ∈ cmds) ∨
      ∃ d, (ee.commits c = some d ∨ ee.createCommit d = some c) ∧ 1 < d.parents.length

end Verif.Spec
