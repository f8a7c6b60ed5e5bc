import Verif.Model.Navigate
import Verif.Spec.Hide

/-! Where `git next` and `git prev` should go, in terms of the commit graph, the references and the events. -/

namespace Verif.Spec

open Verif

/-- The order of commits: ancestors first, and by time otherwise. -/
def Earlier (graph : CommitGraph Oid) (time : Oid → Nat) (a b : Oid) : Prop :=
  a ≠ b ∧ (Anc graph a b ∨ (¬ Anc graph b a ∧ (time a < time b ∨ (time a = time b ∧ a.val < b.val))))

/-- That order makes sense for a set of commits. -/
def Orderly (graph : CommitGraph Oid) (time : Oid → Nat) (s : Oid → Prop) : Prop :=
  ∀ a b c, s a → s b → s c → Earlier graph time a b → Earlier graph time b c → Earlier graph time a c

/-- What is documented of Rust's `sort_by`: it rearranges the list, and if the comparison is a total order
of its elements, it sorts it. -/
structure SortContract (sortBy : (Oid → Oid → Ordering) → List Oid → List Oid) : Prop where
  perm : ∀ cmp l, (sortBy cmp l).Perm l
  sorted : ∀ cmp l, l.Nodup →
    (∀ a ∈ l, ∀ b ∈ l, a ≠ b → (cmp a b = .lt ∧ cmp b a = .gt) ∨ (cmp a b = .gt ∧ cmp b a = .lt)) →
    (∀ a ∈ l, ∀ b ∈ l, ∀ c ∈ l, a ≠ b → b ≠ c → cmp a b = .lt → cmp b c = .lt → a ≠ c ∧ cmp a c = .lt) →
    (sortBy cmp l).Pairwise fun a b => cmp a b = .lt

/-- There is a branch at the commit. -/
def AtBranch (git : GitState) (o : Oid) : Prop := ∃ name, IsBranch name ∧ git.refs.get? name = some o

/-- The next branches: none is between. -/
def NextBranch (graph : CommitGraph Oid) (git : GitState) (a b : Oid) : Prop :=
  AtBranch git b ∧ a ≠ b ∧ Anc graph a b ∧
    ∀ b', AtBranch git b' → a ≠ b' → Anc graph a b' → Anc graph b' b → b' = b

/-- The previous branches: none is between. -/
def PrevBranch (graph : CommitGraph Oid) (git : GitState) (a b : Oid) : Prop :=
  AtBranch git b ∧ a ≠ b ∧ Anc graph b a ∧
    ∀ b', AtBranch git b' → a ≠ b' → Anc graph b' a → Anc graph b b' → b' = b

/-- A commit of the main branch. -/
def OnMain (graph : CommitGraph Oid) (main : Text) (git : GitState) (o : Oid) : Prop :=
  ∃ m, git.refs.get? main = some m ∧ Anc graph o m

/-- A step. `next` goes to a visible child, `prev` to a parent; or to the next and previous branch. With
`--all`, `prev` stays off the main branch. -/
def NavStep (graph : CommitGraph Oid) (main : Text) (git : GitState) (es : List Event)
    (command : NavCommand) (distance : Distance) (a b : Oid) : Prop :=
  match command, distance with
  | .next, .numCommits _ false | .next, .allTheWay false => IsParent graph a b ∧ Seen graph main git es b
  | .next, .numCommits _ true | .next, .allTheWay true => NextBranch graph git a b
  | .prev, .numCommits _ false => IsParent graph b a
  | .prev, .numCommits _ true => PrevBranch graph git a b
  | .prev, .allTheWay false => IsParent graph b a ∧ ¬ OnMain graph main git b
  | .prev, .allTheWay true => PrevBranch graph git a b ∧ ¬ OnMain graph main git b

/-- A step which is not ambiguous, or for which the preference decides: the latest or the earliest, or the
one which the user selects from the list of them (after `i` steps). -/
def PreferredStep (before : Oid → Oid → Prop) (orderly : (Oid → Prop) → Prop)
    (prompt : Nat → List Oid → Except Unit (Option Nat)) (step : Oid → Oid → Prop)
    (towards : Option Towards) (i : Nat) (a b : Oid) : Prop :=
  step a b ∧ ((∀ b', step a b' → b' = b) ∨
    match towards with
    | none => False
    | some .interactive => ∃ l j, l.Nodup ∧ (∀ x, x ∈ l ↔ step a x) ∧ (orderly (step a) → l.Pairwise before) ∧
        prompt i l = .ok (some j) ∧ l[j]? = some b
    | some .newest => orderly (step a) → ∀ b', step a b' → b' ≠ b → before b' b
    | some .oldest => orderly (step a) → ∀ b', step a b' → b' ≠ b → before b b')

/-- The preference in effect: the given one; without any, the configuration says whether to ask. -/
def Prefers (ask : Bool) (given inEffect : Option Towards) : Prop :=
  (∀ t, given = some t → inEffect = some t) ∧
  (given = none → ask = true → inEffect = some .interactive) ∧
  (given = none → ask = false → inEffect = none)

/-- What the options of the command mean. -/
def OptionsMean (o : TraverseOptions) (distance : Distance) (towards : Option Towards) : Prop :=
  (o.allTheWay = true → distance = .allTheWay o.moveByBranches) ∧
  (o.allTheWay = false → distance = .numCommits (o.numCommits.getD 1) o.moveByBranches) ∧
  (o.oldest = true → towards = some .oldest) ∧ (o.newest = true → towards = some .newest) ∧
  (o.interactive = true → towards = some .interactive) ∧
  (o.oldest = false → o.newest = false → o.interactive = false → towards = none)

/-- A number of steps. -/
inductive Walk (step : Nat → Oid → Oid → Prop) : Nat → Oid → Oid → Prop
  | stop {a} : Walk step 0 a a
  | go {n a b c} : Walk step n a b → step n b c → Walk step (n + 1) a c

/-- Why there is nowhere to go from a commit, though not all steps were made. -/
def NoWay (before : Oid → Oid → Prop) (orderly : (Oid → Prop) → Prop)
    (prompt : Nat → List Oid → Except Unit (Option Nat)) (step : Oid → Oid → Prop)
    (towards : Option Towards) (i : Nat) (a : Oid) : Prop :=
  ∃ b b', step a b ∧ step a b' ∧ b ≠ b' ∧
    (towards = none ∨
      (towards = some .interactive ∧
        ∃ l : List Oid, l.Nodup ∧ (∀ x, x ∈ l ↔ step a x) ∧ (orderly (step a) → l.Pairwise before) ∧
          prompt i l = .ok none))

end Verif.Spec
