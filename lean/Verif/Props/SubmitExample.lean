import Verif.Props.Submit
import Verif.Props.Plan

/-!
C47: examples for `submit`, and where it does not do what one would like.
-/

namespace Verif.Props

open Verif Verif.Spec

/-- A repository with the main branch, `a` (out of date), `b` (up to date) and `c` (new). -/
def exSubmit : SubmitWorld :=
  { refs := [(t!"refs/heads/master", oidN 0), (t!"refs/heads/a", oidN 1), (t!"refs/heads/b", oidN 2),
      (t!"refs/heads/c", oidN 3)]
    pushRemote := fun _ => none
    pushDefault := none
    remote := [(t!"master", t!"origin"), (t!"a", t!"origin"), (t!"b", t!"origin")]
    merge := [(t!"master", t!"refs/heads/master"), (t!"a", t!"refs/heads/a"), (t!"b", t!"refs/heads/b")]
    tracking := [((t!"origin", t!"refs/heads/a"), oidN 5), ((t!"origin", t!"refs/heads/b"), oidN 5)]
    remotes := [((t!"origin", t!"refs/heads/a"), oidN 4), ((t!"origin", t!"refs/heads/b"), oidN 2)]
    reachable := fun _ => true
    accepts := fun _ _ => true
    isAncestor := fun a b => a.val ≤ b.val }

def exSubmitSet : List Oid := [oidN 1, oidN 2, oidN 3]

theorem exSubmit_wf : AMap.WF exSubmit.refs := by unfold AMap.WF; decide +kernel

/-- With `--create`, `a` and `c` are pushed, and the remote has all of them. -/
example : (submit exSubmit t!"master" exSubmitSet true false).2 =
    ([.fetch t!"origin" [t!"refs/heads/a", t!"refs/heads/b"], .pushNew t!"origin" [t!"c"],
      .pushLease t!"origin" [t!"a"]],
      some { submitted := [t!"c"], updated := [t!"a"], skipped := [t!"b"], unsubmitted := [] }) := by
  decide +kernel

example : (submit exSubmit t!"master" exSubmitSet true false).1.remotes.get? (t!"origin", t!"refs/heads/c") =
    some (oidN 3) ∧
    (submit exSubmit t!"master" exSubmitSet true false).1.remotes.get? (t!"origin", t!"refs/heads/a") =
    some (oidN 1) := by
  decide +kernel

/-- Without it, `c` is only mentioned. -/
example : (submit exSubmit t!"master" exSubmitSet false false).2 =
    ([.fetch t!"origin" [t!"refs/heads/a", t!"refs/heads/b"], .pushLease t!"origin" [t!"a"]],
      some { submitted := [], updated := [t!"a"], skipped := [t!"b"], unsubmitted := [t!"c"] }) := by
  decide +kernel

/-- A dry run. -/
example : (submit exSubmit t!"master" exSubmitSet true true).2 =
    ([.fetch t!"origin" [t!"refs/heads/a", t!"refs/heads/b"]],
      some { submitted := [t!"c"], updated := [t!"a"], skipped := [t!"b"], unsubmitted := [] }) := by
  decide +kernel

theorem exSubmit_alone {b : Text} {o : Oid}
    (h : (exSubmit.refs.filter fun e => e.2 = o).map Prod.fst = [t!"refs/heads/" ++ b]) :
    Alone exSubmit t!"master" b o := by
  intro b' hb' _
  have hm : (t!"refs/heads/" ++ b', o) ∈ exSubmit.refs := AMap.mem_of_get? hb'
  have : t!"refs/heads/" ++ b' ∈ (exSubmit.refs.filter fun e => e.2 = o).map Prod.fst :=
    List.mem_map.2 ⟨_, List.mem_filter.2 ⟨hm, by simp⟩, rfl⟩
  rw [h, List.mem_singleton] at this
  exact List.append_cancel_left this

theorem exSubmit_chosen {b : Text} {o : Oid} (h : exSubmit.refs.get? (t!"refs/heads/" ++ b) = some o)
    (hm : o ∈ exSubmitSet) (hb : b ≠ t!"master") : Selected exSubmit t!"master" exSubmitSet b o := ⟨h, hm, hb⟩

/-- The hypotheses of `usual_submit`. -/
example : Selected exSubmit t!"master" exSubmitSet t!"a" (oidN 1) ∧ Alone exSubmit t!"master" t!"a" (oidN 1) ∧
    UsualUpstream exSubmit t!"a" t!"origin" :=
  ⟨exSubmit_chosen (by decide +kernel) (by decide +kernel) (by decide +kernel),
    exSubmit_alone (by decide +kernel), by decide +kernel, by decide +kernel, .inl rfl, by decide +kernel⟩

theorem exSubmit_c : NotYetThere exSubmit t!"master" exSubmitSet t!"c" := by
  refine ⟨oidN 3, exSubmit_chosen (by decide +kernel) (by decide +kernel) (by decide +kernel),
    exSubmit_alone (by decide +kernel), ?_⟩
  rintro u ⟨r, m, hr, -⟩
  have : exSubmit.remote.get? t!"c" = none := by decide +kernel
  rw [this] at hr
  cases hr

/-- The hypotheses of `create_submit`. -/
example : BranchAt exSubmit t!"c" (oidN 3) ∧ NotYetThere exSubmit t!"master" exSubmitSet t!"c" ∧
    DefaultRemote exSubmit t!"master" t!"origin" :=
  ⟨by unfold BranchAt; decide +kernel, exSubmit_c, .inl (.inr ⟨rfl, by decide +kernel⟩)⟩

theorem exSubmit_fetched {r x : Text} (h : Fetched exSubmit t!"master" exSubmitSet r x) :
    (r, x) = (t!"origin", t!"refs/heads/a") ∨ (r, x) = (t!"origin", t!"refs/heads/b") := by
  have hg : fetchGroups (branchInfos exSubmit t!"master" exSubmitSet) =
      [(t!"origin", [t!"refs/heads/a", t!"refs/heads/b"])] := by decide +kernel
  obtain ⟨g, hm, rfl, hx⟩ := (mem_fetchGroups exSubmit_wf).2 h
  rw [hg, List.mem_singleton] at hm
  subst hm
  simp only [List.mem_cons, List.not_mem_nil, or_false] at hx
  rcases hx with rfl | rfl
  · exact .inl rfl
  · exact .inr rfl

/-- The hypotheses of `submit_succeeds`. -/
example : CanFetch exSubmit t!"master" exSubmitSet ∧ CanUpdate exSubmit t!"master" exSubmitSet ∧
    CanCreate exSubmit t!"master" exSubmitSet := by
  refine ⟨?_, fun _ _ _ _ => rfl, t!"origin", .inl (.inr ⟨rfl, by decide +kernel⟩), ?_⟩
  · intro r x h _
    refine ⟨rfl, ?_⟩
    rcases exSubmit_fetched h with e | e <;> rw [e] <;> decide +kernel
  · intro b hb
    refine ⟨.inr rfl, rfl, ?_⟩
    intro o old ho hold
    exfalso
    obtain ⟨o', hc, -, hn⟩ := hb
    have hm : ((t!"origin", t!"refs/heads/" ++ b), old) ∈ exSubmit.remotes := AMap.mem_of_get? hold
    have hb' : b = t!"a" ∨ b = t!"b" := by
      simp only [exSubmit, List.mem_cons, List.not_mem_nil, or_false, Prod.mk.injEq] at hm
      rcases hm with ⟨⟨-, e⟩, -⟩ | ⟨⟨-, e⟩, -⟩
      · exact .inl (List.append_cancel_left (as := t!"refs/heads/") e)
      · exact .inr (List.append_cancel_left (as := t!"refs/heads/") e)
    have hr : ∃ u, exSubmit.remote.get? b = some t!"origin" ∧ exSubmit.merge.get? b = some (t!"refs/heads/" ++ b) ∧
        exSubmit.remotes.get? (t!"origin", t!"refs/heads/" ++ b) = some u := by
      rcases hb' with rfl | rfl
      · exact ⟨_, by decide +kernel, by decide +kernel, hold⟩
      · exact ⟨_, by decide +kernel, by decide +kernel, hold⟩
    obtain ⟨u, h1, h2, h3⟩ := hr
    exact hn u ⟨_, _, h1, h2, .inr ⟨by decide +kernel, .inl ⟨⟨b, o', hc, .inr ⟨rfl, h1⟩, rfl⟩, h3⟩⟩⟩

/-! ### what is not as one would like -/

/-- Someone else has pushed a further commit to the branch `a`, which was not yet fetched. `submit` fetches it
and then pushes with force the older commit: the lease does not protect it. -/
def exSubmitBehind : SubmitWorld :=
  { exSubmit with
      tracking := [((t!"origin", t!"refs/heads/a"), oidN 1)]
      remotes := [((t!"origin", t!"refs/heads/a"), oidN 4)] }

theorem behind_branch_rewinds : ∃ w : SubmitWorld, ∃ o o',
    BranchAt w t!"a" o ∧ UsualUpstream w t!"a" t!"origin" ∧
    w.tracking.get? (t!"origin", t!"refs/heads/a") = some o ∧
    w.remotes.get? (t!"origin", t!"refs/heads/a") = some o' ∧ w.isAncestor o o' = true ∧ o ≠ o' ∧
    (submit w t!"master" [o] false false).2.2 =
      some { submitted := [], updated := [t!"a"], skipped := [], unsubmitted := [] } ∧
    (submit w t!"master" [o] false false).1.remotes.get? (t!"origin", t!"refs/heads/a") = some o :=
  ⟨exSubmitBehind, oidN 1, oidN 4, by unfold BranchAt; decide +kernel,
    ⟨by decide +kernel, by decide +kernel, .inl rfl, by decide +kernel⟩,
    by decide +kernel, by decide +kernel, by decide +kernel, by decide +kernel, by decide +kernel,
    by decide +kernel⟩

/-- The branch `a` has the upstream branch `x`, and the remote has another branch `a`: this one is replaced,
and the upstream branch stays as it is. -/
def exOtherName : SubmitWorld :=
  { exSubmit with
      merge := [(t!"a", t!"refs/heads/x")]
      tracking := [((t!"origin", t!"refs/heads/x"), oidN 5)]
      remotes := [((t!"origin", t!"refs/heads/x"), oidN 5), ((t!"origin", t!"refs/heads/a"), oidN 6)] }

theorem other_name_replaced : ∃ w : SubmitWorld, ∃ o,
    BranchAt w t!"a" o ∧ w.remote.get? t!"a" = some t!"origin" ∧
    w.merge.get? t!"a" = some t!"refs/heads/x" ∧
    (submit w t!"master" [o] false false).2.2 =
      some { submitted := [], updated := [t!"a"], skipped := [], unsubmitted := [] } ∧
    (submit w t!"master" [o] false false).1.remotes.get? (t!"origin", t!"refs/heads/x") =
      w.remotes.get? (t!"origin", t!"refs/heads/x") ∧
    w.remotes.get? (t!"origin", t!"refs/heads/x") ≠ some o ∧
    (submit w t!"master" [o] false false).1.remotes.get? (t!"origin", t!"refs/heads/a") ≠
      w.remotes.get? (t!"origin", t!"refs/heads/a") :=
  ⟨exOtherName, oidN 1, by unfold BranchAt; decide +kernel, by decide +kernel, by decide +kernel,
    by decide +kernel, by decide +kernel, by decide +kernel, by decide +kernel⟩

/-- The branch `a` is pushed to a fork, where it is up to date, while its upstream branch is at `origin`
(another name for the main branch there): it is called updated each time. And when the upstream branch is
where the branch is, the branch at the fork is left out of date. -/
def exSubmitFork : SubmitWorld :=
  { exSubmit with
      pushRemote := fun b => if b = t!"a" then some t!"fork" else none
      tracking := [((t!"origin", t!"refs/heads/a"), oidN 1)]
      remotes := [((t!"origin", t!"refs/heads/a"), oidN 1), ((t!"fork", t!"refs/heads/a"), oidN 6)] }

theorem fork_left_out_of_date : ∃ w : SubmitWorld, ∃ o,
    BranchAt w t!"a" o ∧ PushesTo w t!"a" t!"fork" ∧
    w.remotes.get? (t!"fork", t!"refs/heads/a") ≠ some o ∧
    (submit w t!"master" [o] false false).2.2 =
      some { submitted := [], updated := [], skipped := [t!"a"], unsubmitted := [] } ∧
    (submit w t!"master" [o] false false).1.remotes.get? (t!"fork", t!"refs/heads/a") =
      w.remotes.get? (t!"fork", t!"refs/heads/a") :=
  ⟨exSubmitFork, oidN 1, by unfold BranchAt; decide +kernel, .inl (by decide +kernel), by decide +kernel,
    by decide +kernel, by decide +kernel⟩

/-- With `--create` and no remote for new branches the command fails even when there are no new branches;
without `--create` it updates the branch. -/
def exNoDefault : SubmitWorld :=
  { exSubmit with
      remote := [(t!"a", t!"origin")]
      merge := [(t!"a", t!"refs/heads/a")] }

theorem create_needs_remote : ∃ w : SubmitWorld, ∃ o,
    BranchAt w t!"a" o ∧ OutOfDate w t!"master" [o] t!"a" ∧ (∀ b, ¬ NotYetThere w t!"master" [o] b) ∧
    (submit w t!"master" [o] true false).2.2 = none ∧
    pushedLease (submit w t!"master" [o] true false).2.1 = [] ∧
    (submit w t!"master" [o] false false).2.2 =
      some { submitted := [], updated := [t!"a"], skipped := [], unsubmitted := [] } := by
  have hwf : AMap.WF exNoDefault.refs := exSubmit_wf
  have hR : (submit exNoDefault t!"master" [oidN 1] false false).2.2 =
      some { submitted := [], updated := [t!"a"], skipped := [], unsubmitted := [] } := by decide +kernel
  refine ⟨exNoDefault, oidN 1, by unfold BranchAt; decide +kernel, ?_, ?_, by decide +kernel, by decide +kernel, hR⟩
  · exact (submit_report hwf hR _).1.1 (by decide +kernel)
  · intro b hb
    exact absurd ((submit_report hwf hR b).2.2.2.2 ⟨rfl, hb⟩) List.not_mem_nil

/-- A branch whose upstream branch is in the repository itself is called updated, though nothing happens. -/
def exSubmitSelf : SubmitWorld :=
  { exSubmit with
      remote := [(t!"a", t!".")]
      merge := [(t!"a", t!"refs/heads/b")] }

theorem self_remote_reported : ∃ w : SubmitWorld, ∃ o,
    BranchAt w t!"a" o ∧
    (submit w t!"master" [o] false false).2.2 =
      some { submitted := [], updated := [t!"a"], skipped := [], unsubmitted := [] } ∧
    (submit w t!"master" [o] false false).1.remotes = w.remotes ∧
    (submit w t!"master" [o] false false).1.refs = w.refs :=
  ⟨exSubmitSelf, oidN 1, by unfold BranchAt; decide +kernel, by decide +kernel, by decide +kernel, by decide +kernel⟩

/-- The hypotheses of `shared_commit_ignored`. -/
example : ∃ w : SubmitWorld, AMap.WF w.refs ∧ BranchAt w t!"a" (oidN 1) ∧ BranchAt w t!"b" (oidN 1) ∧
    OutOfDate w t!"master" [oidN 3] t!"c" :=
  ⟨{ exSubmit with
        refs := [(t!"refs/heads/a", oidN 1), (t!"refs/heads/b", oidN 1), (t!"refs/heads/c", oidN 3)]
        remote := [(t!"c", t!"origin")]
        merge := [(t!"c", t!"refs/heads/c")]
        remotes := [((t!"origin", t!"refs/heads/c"), oidN 4)] },
    by unfold AMap.WF; decide +kernel, by unfold BranchAt; decide +kernel, by unfold BranchAt; decide +kernel, by
      refine (submit_report (create := false) (dry := false)
        (R := { submitted := [], updated := [t!"c"], skipped := [], unsubmitted := [] })
        (by unfold AMap.WF; decide +kernel) (by decide +kernel) _).1.1 (by decide +kernel)⟩

/-- The hypotheses of `deleted_upstream_fails`, with another branch which is out of date. -/
example : ∃ w : SubmitWorld, AMap.WF w.refs ∧ Selected w t!"master" exSubmitSet t!"b" (oidN 2) ∧
    PushesTo w t!"b" t!"origin" ∧ w.remotes.get? (t!"origin", t!"refs/heads/b") = none ∧
    (w.remotes.get? (t!"origin", t!"refs/heads/a")).isSome :=
  ⟨{ exSubmit with remotes := [((t!"origin", t!"refs/heads/a"), oidN 4)] }, exSubmit_wf,
    ⟨by unfold BranchAt; decide +kernel, by decide +kernel, by decide +kernel⟩, .inr ⟨rfl, by decide +kernel⟩,
    by decide +kernel, by decide +kernel⟩

end Verif.Props
