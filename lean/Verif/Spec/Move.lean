import Verif.Model.Move
import Verif.Spec.Navigate
import Verif.Spec.Plan
import Verif.Spec.Execute

/-! What `move` should do, in terms of the commit graph and of which commits are visible. -/

namespace Verif.Spec

open Verif

/-- What is taken for granted about sets of commits: the members of a set can be listed, `first` is one of
them, and sorting rearranges. All the commits exist in the repository. -/
structure SetContract (env : MoveCmdEnv) : Prop where
  mem : ∀ l x, x ∈ env.nav.toVec l ↔ x ∈ l
  nodup : ∀ l, (env.nav.toVec l).Nodup
  first_mem : ∀ l x, env.first l = some x → x ∈ l
  first_some : ∀ l, l ≠ [] → (env.first l).isSome
  sort : ∀ cmp l, (env.nav.sortBy cmp l).Perm l
  exist : ∀ x, env.nav.existing x = true

/-- A commit of the set none of whose parents is in the set. -/
def Topmost (graph : CommitGraph Oid) (S : Oid → Prop) (c : Oid) : Prop :=
  S c ∧ ∀ p, IsParent graph p c → ¬ S p

/-- Commits are put on top of others as requested, and their visible descendants go along, each on top of
its own parents. -/
def Carried (graph : CommitGraph Oid) (seen : Oid → Prop) (req : Oid → Oid → Prop) (p c : Oid) : Prop :=
  req p c ∨ ((¬ ∃ q, req q c) ∧ (∃ s q, req q s ∧ Anc graph s c) ∧ seen c ∧ IsParent graph p c)

/-- `--source`: the commits go to the destination. Of a parent and its child only the parent has to be
moved, for the child goes along. -/
def SourceRequest (graph : CommitGraph Oid) (S : Oid → Prop) (dest p c : Oid) : Prop :=
  Topmost graph S c ∧ p = dest

/-- `--base`: the first commit of a branch which leads to `x`; the branch starts where the history of the
destination was left. -/
def IsBase (graph : CommitGraph Oid) (x dest b : Oid) : Prop :=
  (Anc graph x dest ∧ b = x) ∨
  (¬ Anc graph x dest ∧ Anc graph b x ∧ ¬ Anc graph b dest ∧
    ((∃ m, IsMergeBase graph x dest m ∧ IsParent graph m b) ∨
      ((∀ p, ¬ IsParent graph p b) ∧ ¬ ∃ m, Anc graph m x ∧ Anc graph m dest)))

/-- The nearest ancestors of a commit which are not in the set. -/
inductive NearestOutside (graph : CommitGraph Oid) (X : Oid → Prop) : Oid → Oid → Prop
  | parent {p c} : IsParent graph p c → ¬ X p → NearestOutside graph X p c
  | skip {p q c} : IsParent graph q c → X q → NearestOutside graph X p q → NearestOutside graph X p c

/-- A nearest proper ancestor of a commit which is in the set. -/
def NearestInside (graph : CommitGraph Oid) (X : Oid → Prop) (p c : Oid) : Prop :=
  X p ∧ p ≠ c ∧ Anc graph p c ∧ ∀ q, X q → q ≠ c → Anc graph q c → Anc graph p q → q = p

/-- `--exact`: a selected commit whose parent is not selected goes to the nearest selected ancestor, or to
the destination if there is none. A visible child of a selected commit which is not selected itself goes
to the nearest ancestor which is not selected. -/
def ExactRequest (graph : CommitGraph Oid) (seen : Oid → Prop) (X : Oid → Prop) (dest p c : Oid) : Prop :=
  (Topmost graph X c ∧ (NearestInside graph X p c ∨
    (p = dest ∧ ∀ q, X q → Anc graph q c → q = c))) ∨
  (¬ X c ∧ seen c ∧ (∃ x, X x ∧ IsParent graph x c) ∧ NearestOutside graph X p c)

/-- `--insert`: the visible children of the destination which are not moved anyway go to the head of what
is moved. -/
def InsertRequest (graph : CommitGraph Oid) (seen : Oid → Prop) (S : Oid → Prop) (dest head p c : Oid) :
    Prop :=
  ¬ S c ∧ seen c ∧ IsParent graph dest c ∧ p = head

/-- The one commit, of those moved along with a set, which has no children. -/
def OnlyHead (graph : CommitGraph Oid) (S : Oid → Prop) (h : Oid) : Prop :=
  ∀ x, (x = h ↔ x ∈ graph.nodes ∧ (∃ s, S s ∧ Anc graph s x) ∧ ∀ c, ¬ IsParent graph x c)

/-- The selected commit on top: the only one which has no selected child and is above all the others which
have no selected parent. -/
def ExactHead (graph : CommitGraph Oid) (X : Oid → Prop) (h : Oid) : Prop :=
  ∀ x, (x = h ↔ X x ∧ (∀ c, IsParent graph x c → ¬ X c) ∧ ∀ t, Topmost graph X t → Anc graph t x)

/-- All the groups of selected commits are on one line. -/
def OneLine (graph : CommitGraph Oid) (X : List Oid) : Prop :=
  ∀ a b, Topmost graph (· ∈ X) a → Topmost graph (· ∈ X) b → Anc graph a b ∨ Anc graph b a

/-- The change of a commit is there already: a commit with the same patch id is between a place where
commits are put and the commits which are put there (the best common ancestor included). -/
def AppliedUpstream (graph : CommitGraph Oid) (patchId : Oid → Nat) (moves : Oid → Oid → Prop) (c : Oid) :
    Prop :=
  ∃ root dest m u, moves dest root ∧ (¬ ∃ p, moves p dest) ∧ IsMergeBase graph root dest m ∧
    Anc graph m u ∧ Anc graph u dest ∧ patchId u = patchId c

/-- The destination: the one commit for which `--dest` stands, or `HEAD`. -/
def IsDest (args : MoveArgs) (dest : Oid) : Prop :=
  (∃ l, args.dest = some l ∧ ∀ x, x ∈ l ↔ x = dest) ∨ (args.dest = none ∧ args.head = some dest)

/-- The commits whose branches are to be moved: by default that of `HEAD`. -/
def IsBaseArg (args : MoveArgs) (x : Oid) : Prop :=
  (args.provided = true ∧ x ∈ args.bases) ∨ (args.provided = false ∧ args.head = some x)

/-- What a rebase in memory does when `moves` says which commit is to be put on top of which: every commit
is cherry-picked onto the new version of the commit on top of which it should be (see `Lands`). The new
commit has that one parent, the tree of the cherry-pick, and message and people of the original. If the
tree is not different from the tree of the parent, or the commit is to be skipped, it is dropped. All
other commits stay as they are, and the new `HEAD` is the new version of the old one. -/
structure Relocated (ee : ExecEnv) (moves : Oid → Oid → Prop) (skip : Oid → Prop) (s : ExecState)
    (head newHead : Option Oid) : Prop where
  moved : ∀ p c, moves p c → ∃ q, Lands moves s.rewritten p q ∧
    ((skip c ∧ AMap.get? s.rewritten c = some .zero) ∨
      ∃ tree base orig, ee.cherryPickFast c q = .ok tree ∧ ee.find s.created q = some base ∧
        ee.find s.created c = some orig ∧
        if tree = base.tree then AMap.get? s.rewritten c = some .zero
        else ∃ n, AMap.get? s.rewritten c = some (.nonZero n) ∧
          ee.find s.created n = some ⟨[q], tree, orig.message, orig.author, orig.committer,
            ee.newTime orig.time⟩)
  others : ∀ c, (¬ ∃ p, moves p c) → AMap.get? s.rewritten c = none
  head : ∀ x, head = some x → ∃ q, newHead = some q ∧ Lands moves s.rewritten x q

end Verif.Spec
