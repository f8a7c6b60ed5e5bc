import Verif.Props.Amend
import Verif.Props.RewordExample

/-! Concrete repositories for the theorems about `amend`, and what it does not do well. -/

namespace Verif.Props

open Verif Verif.Spec

/-- The command, for examples. One file was changed, and the tree with the change is `21`. -/
def exAmendEnv (commits : List (Oid × CommitData)) (new : List (CommitData × Oid))
    (picks : List ((Oid × Oid) × Nat)) (reparent : Bool) (files : List Text) : AmendEnv where
  patchId c := c.val
  touchedPaths c := c.val
  sortedCommitSet := List.dedup
  toVec := List.dedup
  forceRewritePublicCommits := false
  detectDuplicateCommitsViaPatchId := true
  options := ⟨false, false, false⟩
  reparent := reparent
  indexConflicts := false
  status := some (oidN 20, [⟨.unmodified, .modified, .blob, t!"f", none⟩])
  amendTree _ := some 21
  retime a := a
  fileExists x := files.contains x
  now := 60
  exec := exExec commits new picks []
  finish _ := exFinish fun _ => false
  disk := ⟨none, false, false, fun w => (w, 0)⟩

/-- `7` is `1` with the change. `8` is `2` on top of that, `9` is the same with the files it had; `10` and
`11` are `3` as a merge. -/
def exAmendNew : List (CommitData × Oid) :=
  [(exNew [oidN 0] 21 1, oidN 7), (exNew [oidN 7] 22 2, oidN 8), (exNew [oidN 7] 12 2, oidN 9),
    (exCommit [oidN 7] 12 2, oidN 10), (exCommit [oidN 7, oidN 2] 13 3, oidN 11),
    (exNew [oidN 1, oidN 2] 13 3, oidN 12), (exNew [oidN 7, oidN 2] 13 3, oidN 13),
    (exNew [oidN 1] 21 2, oidN 14)]

def exAmendStack (reparent : Bool) (files : List Text) : AmendEnv :=
  exAmendEnv exStackCommits exAmendNew [((oidN 2, oidN 7), 22)] reparent files

/-- The branch `b`, which is checked out, is at `1`, and the branch `c` is at `2`. -/
def exAmendWorld (refs : Refs) : RepoWorld :=
  { exWorld (refs ++ [(t!"refs/heads/main", oidN 0), (t!"refs/heads/b", oidN 1), (t!"refs/heads/c", oidN 2)])
      (.symbolic t!"refs/heads/b") with
    db := ({} : Db).addEvents exStackEvents }

/-- Non-vacuity: the hypotheses of `amend_command_partial` about the repository. -/
example (reparent : Bool) : Agrees exStackGraph (exAmendStack reparent []).exec ∧
    NoCollisions (exAmendStack reparent []).exec ∧ InMemoryOnly (exAmendStack reparent []).options ∧
    (exAmendWorld []).git.headInfo.oid = some (oidN 1) ∧
    AMap.WF (exAmendWorld []).git.refs ∧
    (∀ name, (exAmendWorld []).git.head = .symbolic name →
      ∃ x, name = t!"refs/heads/" ++ x ∧ OwnName (exAmendWorld []).git.refs x) ∧
    ∀ c, IsParent exStackGraph (oidN 1) c → (exStackGraph.parentsOf c).length ≤ 1 := by
  refine ⟨?_, exExec_noCollisions (commits := exStackCommits) (new := exAmendNew)
    (picks := [((oidN 2, oidN 7), 22)]) (amends := []) (by decide) (by decide), ⟨rfl, .inr rfl⟩, by decide +kernel,
    by unfold AMap.WF; decide +kernel, ?_, ?_⟩
  · intro c hc
    have hc : c ∈ [oidN 3, oidN 2, oidN 1, oidN 0] := hc
    simp only [List.mem_cons, List.not_mem_nil, or_false] at hc
    rcases hc with rfl | rfl | rfl | rfl
    · exact ⟨exCommit [oidN 0] 13 3, rfl, by decide +kernel⟩
    · exact ⟨exCommit [oidN 1] 12 2, rfl, by decide +kernel⟩
    · exact ⟨exCommit [oidN 0] 11 1, rfl, by decide +kernel⟩
    · exact ⟨exCommit [] 10 0, rfl, by decide +kernel⟩
  · intro name h
    cases h
    refine ⟨t!"b", rfl, by decide +kernel, by decide +kernel, by decide +kernel, ?_⟩
    intro pre hp
    simp only [List.mem_cons, List.not_mem_nil, or_false] at hp
    rcases hp with rfl | rfl | rfl <;> decide +kernel
  · intro c hc
    have := hc.child_mem
    have hc : c ∈ [oidN 3, oidN 2, oidN 1, oidN 0] := this
    simp only [List.mem_cons, List.not_mem_nil, or_false] at hc
    rcases hc with rfl | rfl | rfl | rfl <;> decide +kernel

/-- Non-vacuity of `amend_command_partial`: `amend` on `1`, with `2` on top. -/
example : ∃ w' es', amend (exAmendStack false []) t!"refs/heads/main" exStackGraph none (exAmendWorld []) =
      (w', .done none) ∧
    w'.db.getEvents = some es' ∧
    findRewriteTarget (Replayer.fromEvents t!"refs/heads/main" es') ⟨es'.length⟩ (oidN 1) =
      some (.nonZero (oidN 7)) ∧
    findRewriteTarget (Replayer.fromEvents t!"refs/heads/main" es') ⟨es'.length⟩ (oidN 2) =
      some (.nonZero (oidN 8)) ∧
    findRewriteTarget (Replayer.fromEvents t!"refs/heads/main" es') ⟨es'.length⟩ (oidN 3) = none ∧
    w'.git.head = .symbolic t!"refs/heads/b" ∧
    w'.git.refs.get? t!"refs/heads/b" = some (oidN 7) ∧
    w'.git.refs.get? t!"refs/heads/c" = some (oidN 8) := by
  refine ⟨_, _, rfl, rfl, ?_⟩
  decide +kernel

/-- Non-vacuity of `amend_command_partial` and `amend_reparent_no_conflicts`: `amend --reparent`, the files of
`2` stay as they are. -/
example : ∃ w' es', amend (exAmendStack true []) t!"refs/heads/main" exStackGraph none (exAmendWorld []) =
      (w', .done none) ∧
    w'.db.getEvents = some es' ∧
    findRewriteTarget (Replayer.fromEvents t!"refs/heads/main" es') ⟨es'.length⟩ (oidN 2) =
      some (.nonZero (oidN 9)) ∧
    w'.git.refs.get? t!"refs/heads/b" = some (oidN 7) ∧
    w'.git.refs.get? t!"refs/heads/c" = some (oidN 9) := by
  refine ⟨_, _, rfl, rfl, ?_⟩
  decide +kernel

/-- Non-vacuity: the change conflicts with `2`, which is left where it is. -/
example : ∃ w', amend (exAmendEnv exStackCommits exAmendNew [] false []) t!"refs/heads/main" exStackGraph none
      (exAmendWorld []) = (w', .done (some (.conflict (oidN 2) []))) ∧
    w'.git.refs.get? t!"refs/heads/b" = some (oidN 7) ∧
    w'.git.refs.get? t!"refs/heads/c" = some (oidN 2) := by
  refine ⟨_, rfl, ?_⟩
  decide +kernel

/-- Non-vacuity of `amend_refused_exact` and `amend_nothing`. -/
example : let w := exAmendWorld []
    let env := exAmendStack false []
    (amend { env with indexConflicts := true } t!"refs/heads/main" exStackGraph none w).2 =
      .refused .conflicts ∧
    (amend env t!"refs/heads/main" exStackGraph none { w with git := { w.git with head := .missing } }).2 =
      .refused .noHead ∧
    (amend env t!"refs/heads/main" exStackGraph none
      { w with git := { w.git with head := .symbolic t!"refs/heads/main" } }).2 =
      .refused (.planner (.movePublicCommits [oidN 0])) ∧
    (amend { env with status := some (oidN 20, [⟨.unmodified, .unmodified, .blob, t!"f", none⟩]) }
      t!"refs/heads/main" exStackGraph none w).2 = .nothing := by
  decide +kernel

/-- Non-vacuity of `amend_leaf`: nothing is above `2`. -/
example : let w : RepoWorld := { exAmendWorld [] with
      git := { (exAmendWorld []).git with head := .symbolic t!"refs/heads/c" } }
    (amend (exAmendStack false []) t!"refs/heads/main" exStackGraph none w).2 = .done none ∧
    (openRepoDag exStackGraph t!"refs/heads/main" w).isSome ∧
    (∀ c, Anc exStackGraph (oidN 2) c → c = oidN 2) ∧
    ∀ e ∈ w.git.refs, pathConflict (t!"refs/branchless/" ++ (oidN 14).toText) e.1 = false ∧
      pathConflict e.1 (t!"refs/branchless/" ++ (oidN 14).toText) = false := by
  refine ⟨by decide +kernel, by decide +kernel, ?_, by decide +kernel⟩
  intro c hc
  have hm : c ∈ [oidN 3, oidN 2, oidN 1, oidN 0] := hc.mem_up (by decide)
  simp only [List.mem_cons, List.not_mem_nil, or_false] at hm
  rcases hm with rfl | rfl | rfl | rfl
  · exact absurd hc (not_isAnc_of exStackGraph_wf (by decide) (by decide +kernel))
  · rfl
  · exact absurd hc (not_isAnc_of exStackGraph_wf (by decide) (by decide +kernel))
  · exact absurd hc (not_isAnc_of exStackGraph_wf (by decide) (by decide +kernel))

/-! ### names which git reads otherwise -/

/-- C66: there is a tag `b` at the commit `0`. `amend` then moves the branch `b` to that commit and says
nothing; the commit which was amended is not on the branch any more. -/
theorem amend_tag_of_this_name :
    ∃ w', amend (exAmendStack false []) t!"refs/heads/main" exStackGraph none
      (exAmendWorld [(t!"refs/tags/b", oidN 0)]) = (w', .done none) ∧
    w'.git.head = .symbolic t!"refs/heads/b" ∧
    w'.git.refs.get? t!"refs/heads/b" = some (oidN 0) := by
  refine ⟨_, rfl, ?_⟩
  decide +kernel

/-- C66: there is a file `b`. `amend` fails after the commit was amended, and the commit on top stays on the
original. -/
theorem amend_file_of_this_name :
    ∃ w' es', amend (exAmendStack false [t!"b"]) t!"refs/heads/main" exStackGraph none (exAmendWorld []) =
      (w', .failed 128) ∧
    w'.git.refs.get? t!"refs/heads/b" = some (oidN 7) ∧
    w'.git.refs.get? t!"refs/heads/c" = some (oidN 2) ∧
    w'.db.getEvents = some es' ∧
    findRewriteTarget (Replayer.fromEvents t!"refs/heads/main" es') ⟨es'.length⟩ (oidN 1) =
      some (.nonZero (oidN 7)) ∧
    findRewriteTarget (Replayer.fromEvents t!"refs/heads/main" es') ⟨es'.length⟩ (oidN 2) = none := by
  refine ⟨_, _, rfl, by decide +kernel, by decide +kernel, rfl, ?_⟩
  decide +kernel

/-! ### merge commits -/

def exAmendMerge : AmendEnv :=
  exAmendEnv [(oidN 0, exCommit [] 10 0), (oidN 1, exCommit [oidN 0] 11 1), (oidN 2, exCommit [oidN 0] 12 2),
    (oidN 3, exCommit [oidN 1, oidN 2] 13 3)] exAmendNew [] true []

/-- C66: `3` is a merge of `1` and `2`. `amend --reparent` on `1` makes another version of `3`, but this is
still a merge of the original commit `1` and `2`. -/
theorem reparent_merge_left :
    ∃ w' es', amend exAmendMerge t!"refs/heads/main" exRewordMergeGraph none (exAmendWorld []) =
      (w', .done none) ∧
    w'.db.getEvents = some es' ∧
    findRewriteTarget (Replayer.fromEvents t!"refs/heads/main" es') ⟨es'.length⟩ (oidN 1) =
      some (.nonZero (oidN 7)) ∧
    findRewriteTarget (Replayer.fromEvents t!"refs/heads/main" es') ⟨es'.length⟩ (oidN 3) =
      some (.nonZero (oidN 12)) ∧
    exAmendMerge.exec.createCommit (exNew [oidN 1, oidN 2] 13 3) = some (oidN 12) := by
  refine ⟨_, _, rfl, rfl, ?_⟩
  decide +kernel

end Verif.Props
