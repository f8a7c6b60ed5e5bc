import Verif.Model.Submit

/-!
What `submit` should push.
-/

namespace Verif.Spec

open Verif

/-- The local branch `b` (a short name) is at the commit `o`. -/
def BranchAt (w : SubmitWorld) (b : Text) (o : Oid) : Prop := w.refs.get? (t!"refs/heads/" ++ b) = some o

/-- A branch at one of the given commits which is not the main branch. -/
structure Selected (w : SubmitWorld) (main : Text) (set : List Oid) (b : Text) (o : Oid) : Prop where
  there : BranchAt w b o
  mem : o ∈ set
  notMain : b ≠ main

/-- No other branch is at the commit, except for the main branch. -/
def Alone (w : SubmitWorld) (main b : Text) (o : Oid) : Prop := ∀ b', BranchAt w b' o → b' ≠ main → b' = b

/-- The remote to which a branch is pushed, by the configuration of this branch. -/
def PushesTo (w : SubmitWorld) (b r : Text) : Prop :=
  w.pushRemote b = some r ∨ (w.pushRemote b = none ∧ w.remote.get? b = some r)

/-- The remote to which new branches are pushed. -/
def DefaultRemote (w : SubmitWorld) (main r : Text) : Prop :=
  PushesTo w main r ∨ ((∀ r', ¬ PushesTo w main r') ∧ w.pushDefault = some r)

/-- The reference `x` of the remote `r` is fetched first: it has the name of a chosen branch which is pushed
to this remote. -/
def Fetched (w : SubmitWorld) (main : Text) (set : List Oid) (r x : Text) : Prop :=
  ∃ b o, Selected w main set b o ∧ PushesTo w b r ∧ x = t!"refs/heads/" ++ b

/-- Where the reference `x` of the remote `r` is, as far as known after fetching. -/
def KnownAt (w : SubmitWorld) (main : Text) (set : List Oid) (r x : Text) (u : Oid) : Prop :=
  (Fetched w main set r x ∧ w.remotes.get? (r, x) = some u) ∨
    (¬ Fetched w main set r x ∧ w.tracking.get? (r, x) = some u)

/-- Where the upstream branch of `b` is, after fetching. -/
def UpstreamAt (w : SubmitWorld) (main : Text) (set : List Oid) (b : Text) (u : Oid) : Prop :=
  ∃ r m, w.remote.get? b = some r ∧ w.merge.get? b = some m ∧
    ((r = t!"." ∧ w.refs.get? m = some u) ∨ (r ≠ t!"." ∧ KnownAt w main set r m u))

/-- A branch whose upstream branch is at another commit. -/
def OutOfDate (w : SubmitWorld) (main : Text) (set : List Oid) (b : Text) : Prop :=
  ∃ o u, Selected w main set b o ∧ Alone w main b o ∧ UpstreamAt w main set b u ∧ u ≠ o

/-- A branch whose upstream branch is at the same commit. -/
def UpToDate (w : SubmitWorld) (main : Text) (set : List Oid) (b : Text) : Prop :=
  ∃ o, Selected w main set b o ∧ Alone w main b o ∧ UpstreamAt w main set b o

/-- A branch without upstream branch. -/
def NotYetThere (w : SubmitWorld) (main : Text) (set : List Oid) (b : Text) : Prop :=
  ∃ o, Selected w main set b o ∧ Alone w main b o ∧ ∀ u, ¬ UpstreamAt w main set b u

/-- The branches pushed as new ones, with their remotes. -/
def pushedNew (cmds : List GitCommand) : List (Text × Text) :=
  cmds.flatMap fun
    | .pushNew r bs => bs.map fun b => (r, b)
    | _ => []

/-- The branches pushed with force, with their remotes. -/
def pushedLease (cmds : List GitCommand) : List (Text × Text) :=
  cmds.flatMap fun
    | .pushLease r bs => bs.map fun b => (r, b)
    | _ => []

/-- The usual configuration: the upstream branch has the same name, and is at the remote to which the branch
is pushed. -/
structure UsualUpstream (w : SubmitWorld) (b r : Text) : Prop where
  remote : w.remote.get? b = some r
  merge : w.merge.get? b = some (t!"refs/heads/" ++ b)
  push : w.pushRemote b = none ∨ w.pushRemote b = some r
  notSelf : r ≠ t!"."

/-- What has to be there so that fetching succeeds: for each chosen branch with a remote, this remote has a
branch of the same name. -/
def CanFetch (w : SubmitWorld) (main : Text) (set : List Oid) : Prop :=
  ∀ r x, Fetched w main set r x → r ≠ t!"." → w.reachable r = true ∧ (w.remotes.get? (r, x)).isSome

/-- The remotes accept the updates. -/
def CanUpdate (w : SubmitWorld) (main : Text) (set : List Oid) : Prop :=
  ∀ b r, OutOfDate w main set b → PushesTo w b r → w.accepts r (t!"refs/heads/" ++ b) = true

/-- There is a remote for new branches; it accepts them, and if it has a branch of the same name, then this
one can be fast-forwarded. -/
def CanCreate (w : SubmitWorld) (main : Text) (set : List Oid) : Prop :=
  ∃ r, DefaultRemote w main r ∧ ∀ b, NotYetThere w main set b →
    (r = t!"." ∨ w.reachable r = true) ∧ w.accepts r (t!"refs/heads/" ++ b) = true ∧
    ∀ o old, BranchAt w b o → w.remotes.get? (r, t!"refs/heads/" ++ b) = some old → w.isAncestor old o = true

end Verif.Spec
