import Verif.Props.Sync
import Verif.Props.MoveExample

/-! Concrete repositories for the theorems about `sync`, and what it does not do well. -/

namespace Verif.Props

open Verif Verif.Spec

/-- The main branch is at `3`. There are three stacks: `1` with `2`, `4`, which has conflicts with `3`, and
`5`, which is on `3` already. -/
def exSyncGraph : CommitGraph Oid :=
  ⟨[(oidN 5, [oidN 3]), (oidN 4, [oidN 0]), (oidN 3, [oidN 0]), (oidN 2, [oidN 1]), (oidN 1, [oidN 0]),
    (oidN 0, [])]⟩

theorem exSyncGraph_wf : WFGraph exSyncGraph := by
  unfold WFGraph exSyncGraph
  repeat (first | exact .nil | refine .cons (by decide) (by decide) ?_)

def exSyncCommits : List (Oid × CommitData) :=
  [(oidN 0, exCommit [] 10 0), (oidN 1, exCommit [oidN 0] 11 1), (oidN 2, exCommit [oidN 1] 12 2),
    (oidN 3, exCommit [oidN 0] 13 3), (oidN 4, exCommit [oidN 0] 14 4), (oidN 5, exCommit [oidN 3] 15 5)]

/-- `8` and `9` are `1` and `2` on `3`; `10` and `11` are the same on `0`. -/
def exSyncNew : List (CommitData × Oid) :=
  [(exNew [oidN 3] 21 1, oidN 8), (exNew [oidN 8] 22 2, oidN 9), (exNew [oidN 0] 11 1, oidN 10),
    (exNew [oidN 10] 12 2, oidN 11)]

def exSyncPicks : List ((Oid × Oid) × Nat) :=
  [((oidN 1, oidN 3), 21), ((oidN 2, oidN 8), 22), ((oidN 1, oidN 0), 11), ((oidN 2, oidN 10), 12)]

def exSyncMove : MoveCmdEnv := exMoveEnv exSyncCommits exSyncNew exSyncPicks []

/-- `git rebase` is not among the things which the examples do. -/
def exPull (upstream : Option Oid) : PullEnv := ⟨fun _ => .ok upstream, fun _ w => (w, 1)⟩

def exSyncWorld (mainOid : Oid) (es : List Event) (b : Oid) : RepoWorld :=
  { exWorld [(t!"refs/heads/main", mainOid), (t!"refs/heads/b", b)] (.symbolic t!"refs/heads/b") with
    db := ({} : Db).addEvents es }

def exSyncEvents : List Event :=
  [.commit 1 (.id 1) (oidN 1), .commit 2 (.id 2) (oidN 2), .commit 3 (.id 3) (oidN 4),
    .commit 4 (.id 4) (oidN 5)]

/-- Non-vacuity: the hypotheses of `sync_stacks_in_memory` and of the other theorems. -/
theorem exSync_ok : SetContract exSyncMove ∧ InMemoryOnly exSyncMove.options ∧ NoCollisions exSyncMove.exec ∧
    Agrees exSyncGraph exSyncMove.exec := by
  refine ⟨exMoveEnv_set _ _ _ _, ⟨rfl, .inr rfl⟩,
    exExec_noCollisions (commits := exSyncCommits) (new := exSyncNew) (picks := exSyncPicks) (amends := [])
      (by decide) (by decide), ?_⟩
  intro c hc
  have hc : c ∈ [oidN 5, oidN 4, oidN 3, oidN 2, oidN 1, oidN 0] := hc
  simp only [List.mem_cons, List.not_mem_nil, or_false] at hc
  rcases hc with rfl | rfl | rfl | rfl | rfl | rfl
  · exact ⟨exCommit [oidN 3] 15 5, rfl, by decide +kernel⟩
  · exact ⟨exCommit [oidN 0] 14 4, rfl, by decide +kernel⟩
  · exact ⟨exCommit [oidN 0] 13 3, rfl, by decide +kernel⟩
  · exact ⟨exCommit [oidN 1] 12 2, rfl, by decide +kernel⟩
  · exact ⟨exCommit [oidN 0] 11 1, rfl, by decide +kernel⟩
  · exact ⟨exCommit [] 10 0, rfl, by decide +kernel⟩

/-- Non-vacuity of `sync_stacks_in_memory`: one stack is moved, one has conflicts, one is on the main branch
already. -/
example : ∃ w' es', syncStacks exSyncMove t!"refs/heads/main" exSyncGraph
      (exSyncWorld (oidN 3) exSyncEvents (oidN 2)) [] =
      (w', .done ⟨[oidN 1], [oidN 4], [oidN 5]⟩) ∧
    w'.db.getEvents = some es' ∧
    findRewriteTarget (Replayer.fromEvents t!"refs/heads/main" es') ⟨es'.length⟩ (oidN 1) =
      some (.nonZero (oidN 8)) ∧
    findRewriteTarget (Replayer.fromEvents t!"refs/heads/main" es') ⟨es'.length⟩ (oidN 2) =
      some (.nonZero (oidN 9)) ∧
    w'.git.refs.get? t!"refs/heads/b" = some (oidN 9) ∧
    w'.git.refs.get? t!"refs/heads/main" = some (oidN 3) := by
  refine ⟨_, _, rfl, rfl, ?_⟩
  decide +kernel

/-- Non-vacuity of the second case of `sync_stacks_in_memory`: the new version of `1` cannot be written. The
stack `5` is not reached. -/
example : syncStacks (exMoveEnv exSyncCommits [] exSyncPicks []) t!"refs/heads/main" exSyncGraph
      (exSyncWorld (oidN 3) exSyncEvents (oidN 2)) [] = (exSyncWorld (oidN 3) exSyncEvents (oidN 2), .error) ∧
    Faulty (exMoveEnv exSyncCommits [] exSyncPicks []).exec (oidN 1) := by
  refine ⟨rfl, .inr ⟨oidN 3, .inr ⟨exCommit [oidN 0] 11 1, 21, rfl, by decide +kernel, rfl⟩⟩⟩

/-- Non-vacuity of `sync_roots_exact`: with the arguments `2` and `5`, only the stacks with these commits. -/
example : ∃ r d, openRepoDag exSyncGraph t!"refs/heads/main" (exSyncWorld (oidN 3) exSyncEvents (oidN 2)) =
      some (r, d) ∧
    stackRoots d [] = [oidN 5, oidN 4, oidN 1] ∧
    stackRoots d [[oidN 2], [oidN 5, oidN 3]] = [oidN 5, oidN 1] := by
  refine ⟨_, _, rfl, ?_⟩
  decide +kernel

/-- Non-vacuity of `sync_command_in_memory` and `sync_pull_stops`. -/
example : let env : SyncEnv := ⟨fun _ => exSyncMove, fun _ => exSyncGraph, exPull (some (oidN 3)),
      fun w => (w, 0), fun _ => []⟩
    let w := exSyncWorld (oidN 3) exSyncEvents (oidN 2)
    (syncCommand env t!"refs/heads/main" none false w).2 = .done ⟨[oidN 1], [oidN 4], [oidN 5]⟩ ∧
    (syncCommand env t!"refs/heads/main" none true w).2 = .done ⟨[oidN 1], [oidN 4], [oidN 5]⟩ ∧
    (syncCommand env t!"refs/heads/main" none true (exSyncWorld (oidN 0) exSyncEvents (oidN 2))).2 =
      .done ⟨[oidN 1], [oidN 4], [oidN 5]⟩ ∧
    (syncCommand { env with fetch := fun w => (w, 128) } t!"refs/heads/main" none true w).2 = .failed 128 ∧
    (syncCommand env t!"refs/heads/main" none true { w with
      git := { w.git with head := .symbolic t!"refs/heads/main" } }).2 = .failed 1 := by
  decide +kernel

/-! ### the main branch -/

/-- Non-vacuity of `sync_main_diverged_partial`: `1` and `2` are on the local main branch and not yet upstream, where
there is `3`. They are moved, and so is the branch. -/
example : ∃ w', syncMain exSyncMove (exPull (some (oidN 3))) t!"refs/heads/main" exSyncGraph
      (exSyncWorld (oidN 2) [] (oidN 0)) = (w', .done ⟨[oidN 1], [], []⟩) ∧
    w'.git.refs.get? t!"refs/heads/main" = some (oidN 9) ∧
    ¬ Anc exSyncGraph (oidN 2) (oidN 3) := by
  refine ⟨_, rfl, by decide +kernel, not_isAnc_of exSyncGraph_wf (by decide) (by decide +kernel)⟩

/-- Non-vacuity: there are conflicts. -/
example : syncMain exSyncMove (exPull (some (oidN 3))) t!"refs/heads/main" exSyncGraph
      (exSyncWorld (oidN 4) [] (oidN 0)) = (exSyncWorld (oidN 4) [] (oidN 0), .done ⟨[], [oidN 4], []⟩) ∧
    (syncMain exSyncMove (exPull none) t!"refs/heads/main" exSyncGraph (exSyncWorld (oidN 4) [] (oidN 0))).2 =
      .done ⟨[], [], []⟩ := by
  exact ⟨rfl, by decide +kernel⟩

/-- C68, and non-vacuity of `sync_main_fast_forward`: the main branch is moved to the commit `3` of the
upstream branch, and the event log has no event for that. So `undo` cannot bring the branch back: what it
knows of the references is what it knew before. -/
theorem fast_forward_not_recorded :
    ∃ w', syncMain exSyncMove (exPull (some (oidN 3))) t!"refs/heads/main" exSyncGraph
      (exSyncWorld (oidN 0) exSyncEvents (oidN 2)) = (w', .done ⟨[], [], []⟩) ∧
    w'.git.refs.get? t!"refs/heads/main" = some (oidN 3) ∧
    w'.db = (exSyncWorld (oidN 0) exSyncEvents (oidN 2)).db := by
  refine ⟨_, rfl, by decide +kernel, rfl⟩

/-- C68: the local main branch has `1` and `2` on top of the upstream branch, which is at `0`. There is
nothing to do; but `sync --pull` makes new commits for both and says that it synced them. (For the stacks,
there is a check whether they are where they should be.) -/
theorem main_ahead_rewritten :
    ∃ w' es', syncMain exSyncMove (exPull (some (oidN 0))) t!"refs/heads/main" exSyncGraph
      (exSyncWorld (oidN 2) [] (oidN 0)) = (w', .done ⟨[oidN 1], [], []⟩) ∧
    Anc exSyncGraph (oidN 0) (oidN 2) ∧
    exSyncGraph.parentsOf (oidN 1) = [oidN 0] ∧
    w'.git.refs.get? t!"refs/heads/main" = some (oidN 11) ∧
    w'.db.getEvents = some es' ∧
    findRewriteTarget (Replayer.fromEvents t!"refs/heads/main" es') ⟨es'.length⟩ (oidN 1) =
      some (.nonZero (oidN 10)) ∧
    findRewriteTarget (Replayer.fromEvents t!"refs/heads/main" es') ⟨es'.length⟩ (oidN 2) =
      some (.nonZero (oidN 11)) := by
  refine ⟨_, _, rfl, isAnc_of exSyncGraph_wf (by decide +kernel), by decide +kernel, by decide +kernel, rfl, ?_⟩
  decide +kernel

/-- The local main branch is at `3`, which is a merge of `1` and `2`; the upstream branch is at `4`. -/
def exSyncMergeGraph : CommitGraph Oid :=
  ⟨[(oidN 4, [oidN 0]), (oidN 3, [oidN 1, oidN 2]), (oidN 2, [oidN 0]), (oidN 1, [oidN 0]), (oidN 0, [])]⟩

theorem exSyncMergeGraph_wf : WFGraph exSyncMergeGraph := by
  unfold WFGraph exSyncMergeGraph
  repeat (first | exact .nil | refine .cons (by decide) (by decide) ?_)

/-- C68, and non-vacuity of the first part of `sync_main_diverged_partial`: two branches were merged into the local
main branch. `sync --pull` says "Syncing", does nothing and exits with 0. -/
theorem main_with_merge_not_synced (env : MoveCmdEnv) (hc : SetContract env) :
    syncMain env (exPull (some (oidN 4))) t!"refs/heads/main" exSyncMergeGraph
      (exSyncWorld (oidN 3) [] (oidN 0)) = (exSyncWorld (oidN 3) [] (oidN 0), .done ⟨[], [], []⟩) ∧
    ¬ Anc exSyncMergeGraph (oidN 4) (oidN 3) ∧ ¬ Anc exSyncMergeGraph (oidN 3) (oidN 4) := by
  refine ⟨?_, not_isAnc_of exSyncMergeGraph_wf (by decide) (by decide +kernel),
    not_isAnc_of exSyncMergeGraph_wf (by decide) (by decide +kernel)⟩
  have hd : ∃ r d, openRepoDag exSyncMergeGraph t!"refs/heads/main" (exSyncWorld (oidN 3) [] (oidN 0)) =
      some (r, d) ∧ d.graph.only [oidN 3] [oidN 4] = [oidN 3, oidN 2, oidN 1] ∧
      d.graph.roots [oidN 3, oidN 2, oidN 1] = [oidN 2, oidN 1] := by
    refine ⟨_, _, rfl, ?_⟩
    decide +kernel
  obtain ⟨r, d, hd, h1, h2⟩ := hd
  unfold syncMain
  rw [hd, show (exSyncWorld (oidN 3) [] (oidN 0)).git.refs.get? t!"refs/heads/main" = some (oidN 3) by
    decide +kernel]
  simp only [exPull]
  rw [h1, h2]
  simp only [List.isEmpty_cons, Bool.false_eq_true, if_false]
  split
  · rename_i e he
    unfold verifyRewriteSet at he
    simp at he
  · split
    · rename_i root hr
      have h1 := (hc.mem [oidN 2, oidN 1] (oidN 2)).2 (by simp)
      have h2 := (hc.mem [oidN 2, oidN 1] (oidN 1)).2 (by simp)
      rw [hr] at h1 h2
      simp only [List.mem_singleton] at h1 h2
      exact absurd (h1.trans h2.symm) (by decide)
    · rfl

/-! ### merge commits -/

/-- The main branch is at `3`; `1` is a merge of the commits `0` and `2` of the main branch, and `4` is on
top of it. -/
def exSyncMergeRoot : CommitGraph Oid :=
  ⟨[(oidN 4, [oidN 1]), (oidN 3, [oidN 2]), (oidN 1, [oidN 0, oidN 2]), (oidN 2, [oidN 0]), (oidN 0, [])]⟩

def exSyncMergeRootMove (onDisk : Bool) : MoveCmdEnv :=
  { exMoveEnv [(oidN 0, exCommit [] 10 0), (oidN 1, exCommit [oidN 0, oidN 2] 11 1),
      (oidN 2, exCommit [oidN 0] 12 2), (oidN 3, exCommit [oidN 2] 13 3), (oidN 4, exCommit [oidN 1] 14 4)]
      exSyncNew exSyncPicks [] with
    options := ⟨false, onDisk, onDisk⟩ }

/-- C67: the first commit of a stack is a merge commit; the commits which it merges are both on the main
branch. It should be moved to the main branch, which is at `3`, but the plan makes it again as a merge of the
commits `0` and `2`, on which it is already. In memory nothing is done since there is a merge commit; on disk
the plan is carried out, and the stack is reported as synced. -/
theorem merge_root_not_moved :
    let w := exSyncWorld (oidN 3) [.commit 1 (.id 1) (oidN 1), .commit 2 (.id 2) (oidN 4)] (oidN 4)
    (∃ r d perms, openRepoDag exSyncMergeRoot t!"refs/heads/main" w = some (r, d) ∧
      verifyRewriteSet d false false (stackRoots d []) = .ok perms ∧
      stackRoots d [] = [oidN 1] ∧
      stackPlans (exSyncMergeRootMove true) ⟨(exSyncMergeRootMove true).planEnv d, perms, [], []⟩ (oidN 3)
        [oidN 1] = .ok (.ok [(oidN 1, some ⟨oidN 3, [.reset (.oid (oidN 3)), .reset (.oid (oidN 0)),
          .merge (oidN 1) [.oid (oidN 2)], .pick (oidN 4) [oidN 4], .detectEmptyCommit (oidN 4),
          .registerExtraPostRewriteHook]⟩)])) ∧
    (syncStacks (exSyncMergeRootMove false) t!"refs/heads/main" exSyncMergeRoot w []) =
      (w, .done ⟨[], [oidN 1], []⟩) ∧
    (syncStacks (exSyncMergeRootMove true) t!"refs/heads/main" exSyncMergeRoot w []).2 =
      .done ⟨[oidN 1], [], []⟩ := by
  refine ⟨⟨_, _, _, rfl, rfl, by decide +kernel, ?_⟩, ?_, ?_⟩
  · rfl
  · rfl
  · decide +kernel

end Verif.Props
