import Verif.Spec.RewordCommand
import Verif.Spec.Hide
import Verif.Model.TestRun

/-! What `git test fix` should do with the commits. -/

namespace Verif.Spec

open Verif Verif.TestRun

/-- The command succeeded on the commit, and left these files. -/
def LeftFiles (tree : Oid → Option Nat) (outputs : List (Oid × TestStatus)) (c : Oid) (t : Nat) : Prop :=
  ∃ cached head o interactive, (c, .passed cached ⟨head, some o⟩ interactive) ∈ outputs ∧ tree o = some t

/-- The commit is to be fixed: with those files it would not be the same commit. -/
def ToFix (ee : ExecEnv) (left : Oid → Nat → Prop) (c : Oid) : Prop :=
  ∃ t d, left c t ∧ ee.commits c = some d ∧ ee.createCommit { d with tree := t } ≠ some c

/-- The commits which get new versions: those of a set, and the visible descendants of those. -/
def AffectedBy (graph : CommitGraph Oid) (seen X : Oid → Prop) (c : Oid) : Prop :=
  X c ∨ (seen c ∧ ∃ x, X x ∧ Anc graph x c)

/-- A commit with the same patch is directly below the commits which get new versions. -/
def TwinBelow (graph : CommitGraph Oid) (A : Oid → Prop) (patchId : Oid → Nat) (c : Oid) : Prop :=
  ∃ p x, A x ∧ IsParent graph p x ∧ ¬ A p ∧ patchId p = patchId c

/-- What `git test fix` does with the commits: those which are to be fixed, and their visible descendants, get
new versions. Its parents are the new versions of the parents; message and people are those of the original; the
files are those which the command left when it was run on the original, and if there are none, those of the
original. A commit which is to be skipped is dropped. (See `Lands` for what the new version is then.) All other
commits stay as they are, and the new `HEAD` is the new version of the old one. Commits without parents are not
fixed. -/
structure Fixed (graph : CommitGraph Oid) (seen : Oid → Prop) (left : Oid → Nat → Prop) (skip : Oid → Prop)
    (ee : ExecEnv) (created : List (Oid × CommitData)) (rewritten : AMap Oid MaybeZero)
    (head newHead : Option Oid) : Prop where
  versions : ∀ c, AffectedBy graph seen (ToFix ee left) c → (skip c ∧ AMap.get? rewritten c = some .zero) ∨
    ∃ d ps tree n, ee.commits c = some d ∧
      List.Forall₂ (Lands (InPlace graph (AffectedBy graph seen (ToFix ee left))) rewritten)
        (graph.parentsOf c) ps ∧
      (∀ t, left c t → tree = t) ∧ ((¬ ∃ t, left c t) → tree = d.tree) ∧
      AMap.get? rewritten c = some (.nonZero n) ∧
      ee.find created n = some ⟨ps, tree, d.message, d.author, d.committer, ee.newTime d.time⟩
  not_root : ∀ c, ToFix ee left c → graph.parentsOf c ≠ []
  others : ∀ c, ¬ AffectedBy graph seen (ToFix ee left) c → AMap.get? rewritten c = none
  head : ∀ x, head = some x → ∃ q, newHead = some q ∧
    Lands (InPlace graph (AffectedBy graph seen (ToFix ee left))) rewritten x q

/-- The commits at which visible commits start (`HEAD`, the branches and the active commits) are all in the graph
(which is what dag.rs:264-279 `sync` does when it is opened). -/
def Synced (graph : CommitGraph Oid) (main : Text) (git : GitState) (es : List Event) : Prop :=
  ∀ h, (git.headInfo.oid = some h ∨ git.refs.get? main = some h ∨
    (∃ b, IsBranch b ∧ git.refs.get? b = some h) ∨ statusIn es h = some true) → h ∈ graph.nodes

/-- The new version of a commit: itself if there is none. -/
def VersionOf (rewritten : AMap Oid MaybeZero) (c q : Oid) : Prop :=
  AMap.get? rewritten c = some (.nonZero q) ∨ (AMap.get? rewritten c = none ∧ q = c)

/-- No version of the commit can be written: its message cannot be read, or an object is not written. -/
def CannotRewrite (ee : ExecEnv) (c : Oid) : Prop :=
  ∃ d, ee.commits c = some d ∧ (d.message = none ∨
    ∃ ps tree time, ee.createCommit ⟨ps, tree, d.message, d.author, d.committer, time⟩ = none)

/-- Why commits cannot be fixed: the files which the command left are not there any more, a commit to fix has no
parents, or no version of a commit can be written. -/
def FixBroken (graph : CommitGraph Oid) (seen : Oid → Prop) (tree : Oid → Option Nat)
    (outputs : List (Oid × TestStatus)) (ee : ExecEnv) : Prop :=
  (∃ c cached head o interactive, (c, .passed cached ⟨head, some o⟩ interactive) ∈ outputs ∧ tree o = none) ∨
  (∃ c, ToFix ee (LeftFiles tree outputs) c ∧ graph.parentsOf c = []) ∨
  ∃ c, ((∃ t, LeftFiles tree outputs c t) ∨
    AffectedBy graph seen (ToFix ee (LeftFiles tree outputs)) c) ∧ CannotRewrite ee c

/-- What is reported: for each commit to fix, its new version. -/
def ReportedFixes (ee : ExecEnv) (left : Oid → Nat → Prop) (new : Oid → MaybeZero → Prop)
    (report : List (Oid × MaybeZero)) : Prop :=
  ∀ c v, (c, v) ∈ report ↔ ToFix ee left c ∧ new c v

end Verif.Spec
