import Verif.Spec.RewordCommand
import Verif.Spec.Describe
import Verif.Model.Phabricator

/-! What submitting to Phabricator should do. -/

namespace Verif.Spec

open Verif Verif.TestRun Verif.Phabricator

/-- The revision of a commit: the first line of its message which names one. -/
def RevisionOf (d : CommitData) (id : Text) : Prop :=
  ∃ m before line after, d.message = some m ∧ splitChar '\n' m = before ++ line :: after ∧
    RevisionLine line ('D' :: id) ∧ ∀ l ∈ before, ∀ r, ¬ RevisionLine l r

/-- The commit for which Phabricator has a revision: the last of the hashes called `gtcm`. -/
def RevisionHash (r : Revision) (c : Oid) : Prop :=
  ∃ before after h, r.hashes = before ++ (t!"gtcm", h) :: after ∧ (∀ x ∈ after, x.1 ≠ t!"gtcm") ∧
    Oid.parse h = some c

/-- Different revisions have different `phid`s. -/
def DistinctPhids (s : Revisions) : Prop :=
  ∀ i j r r', AMap.get? s i = some r → AMap.get? s j = some r' → r.phid = r'.phid → i = j

/-- In Phabricator, the first revision depends on the second one. -/
def DependsOn (s : Revisions) (i j : Text) : Prop :=
  ∃ r r', AMap.get? s i = some r ∧ AMap.get? s j = some r' ∧ r'.phid ∈ r.dependsOn

/-- No revision depends on itself, not even indirectly. -/
def NoCycle (s : Revisions) : Prop := ∀ i, ¬ Relation.TransGen (DependsOn s) i i

/-- The revision is that of a parent of the commit which is among the given ones. -/
def StackedOn (find : Oid → Option CommitData) (draft : Oid → Prop) (c : Oid) (id : Text) : Prop :=
  ∃ d p dp, find c = some d ∧ p ∈ d.parents ∧ draft p ∧ find p = some dp ∧ RevisionOf dp id

/-- The revision depends on the revisions of the parents of the commit, as far as Phabricator has those, and on
nothing else. -/
def Stacked (find : Oid → Option CommitData) (draft : Oid → Prop) (s : Revisions) (c : Oid) (i : Text) : Prop :=
  ∀ r, AMap.get? s i = some r → ∀ ph, ph ∈ r.dependsOn ↔
    ∃ j r', StackedOn find draft c j ∧ AMap.get? s j = some r' ∧ ph = r'.phid

/-- Phabricator refuses to change dependencies only if it does not have the revision, or there would be a cycle. -/
def RefusesOnlyCycles (q : Conduit) : Prop :=
  ∀ s i phids, AMap.WF s → q.edit s i phids = .refused →
    AMap.get? s i = none ∨ ¬ NoCycle (setParents s i phids)

/-- No two of the commits have the same revision. -/
def DifferentRevisions (find : Oid → Option CommitData) (l : List Oid) : Prop :=
  l.Pairwise fun a b => ∀ da db i, find a = some da → find b = some db → RevisionOf da i → ¬ RevisionOf db i

/-- The commits are in an order with parents before children. -/
def OldestFirst (find : Oid → Option CommitData) (l : List Oid) : Prop :=
  l.Pairwise fun a b => ∀ d, find a = some d → b ∉ d.parents

/-- Sorting is what it should be. -/
def Sorts (sort : (Oid → Option CommitData) → List Oid → List Oid) (find : Oid → Option CommitData) : Prop :=
  ∀ l, (sort find l).Perm l.dedup ∧ OldestFirst find (sort find l)

/-- `arc` succeeded for the commit, and made this commit of it. -/
def UploadedAs (outputs : List (Oid × TestStatus)) (c r : Oid) : Prop :=
  ∃ cached info interactive, (c, .passed cached info interactive) ∈ outputs ∧ r = info.headCommitOid.getD c

/-- `arc` changes only the message of a commit, and who committed it and when. -/
def ArcAmends (ee : ExecEnv) (outputs : List (Oid × TestStatus)) : Prop :=
  ∀ c r, UploadedAs outputs c r → ∃ d dr, ee.commits c = some d ∧ ee.commits r = some dr ∧
    dr.parents = d.parents ∧ dr.tree = d.tree

/-- What becomes of the commits when revisions are created. What `arc` made of a selected commit is put on top of the
new versions of its parents; nothing but the parents and the time is changed. A visible commit on top of those gets a new
version with the same files, message and people on top of the new version of its parent; if it changes no files,
there is none. All other commits stay as they are, and the new `HEAD` is the new version of the old one. -/
structure Uploaded (graph : CommitGraph Oid) (seen : Oid → Prop) (X : List Oid) (made : Oid → Oid → Prop)
    (ee : ExecEnv) (created : List (Oid × CommitData)) (rewritten : AMap Oid MaybeZero)
    (head newHead : Option Oid) : Prop where
  selected : ∀ c ∈ X, ∃ r d ps n, made c r ∧ ee.commits r = some d ∧
    List.Forall₂ (Lands (InPlace graph (Affected graph seen X)) rewritten) (graph.parentsOf c) ps ∧
    AMap.get? rewritten c = some (.nonZero n) ∧
    ee.find created n = some ⟨ps, d.tree, d.message, d.author, d.committer, ee.newTime d.time⟩
  above : ∀ c, c ∉ X → Affected graph seen X c → ∃ d p dp q, ee.commits c = some d ∧
    graph.parentsOf c = [p] ∧ ee.commits p = some dp ∧
    Lands (InPlace graph (Affected graph seen X)) rewritten p q ∧
    if d.tree = dp.tree then AMap.get? rewritten c = some .zero
    else ∃ n, AMap.get? rewritten c = some (.nonZero n) ∧
      ee.find created n = some ⟨[q], d.tree, d.message, d.author, d.committer, ee.newTime d.time⟩
  others : ∀ c, ¬ Affected graph seen X c → AMap.get? rewritten c = none
  head : ∀ x, head = some x → ∃ q, newHead = some q ∧
    Lands (InPlace graph (Affected graph seen X)) rewritten x q

/-- What is reported for the selected commits: the new version, and the revision which `arc` made for it. -/
structure ReportedRevisions (X : List Oid) (made : Oid → Oid → Prop) (ee : ExecEnv) (written : List (Oid × CommitData))
    (rewritten : AMap Oid MaybeZero) (created : List CreatedRevision) : Prop where
  originals : created.map (·.original) = X
  named : ∀ x ∈ created, AMap.get? rewritten x.original = some (.nonZero x.final) ∧
    ∃ r dr df id, made x.original r ∧ ee.commits r = some dr ∧ RevisionOf dr id ∧ x.name = 'D' :: id ∧
      ee.find written x.final = some df ∧ RevisionOf df id

end Verif.Spec
