import Verif.Props.TestFix
import Verif.Props.MoveExample

/-! Concrete repositories for the theorems about `git test fix`, and what it does not do well. -/

namespace Verif.Props

open Verif Verif.Spec Verif.TestRun Verif.TestFix

/-- The command, for examples: it leaves the files `31` and `32`. -/
def exFixEnv (commits : List (Oid × CommitData)) (new : List (CommitData × Oid)) (patchId : Oid → Nat)
    (detect dry : Bool) : FixEnv :=
  ⟨patchId, fun _ => 0, List.dedup, List.dedup, false, detect, false, false, dry,
    fun o => if o = oidN 20 then some 31 else if o = oidN 21 then some 32 else none,
    exExec commits new [] [], fun _ => exFinish fun _ => false, ⟨none, false, false, fun w => (w, 0)⟩⟩

/-- `7` and `8` are `1` and `2` with the files which the command left; `9` and `10` are those on top of each other
with the present time, and `11` is `2` on `9` without a change. -/
def exFixNew : List (CommitData × Oid) :=
  [(exCommit [oidN 0] 31 1, oidN 7), (exCommit [oidN 1] 32 2, oidN 8), (exNew [oidN 0] 31 1, oidN 9),
    (exNew [oidN 9] 32 2, oidN 10), (exNew [oidN 9] 12 2, oidN 11), (exCommit [] 31 0, oidN 12)]

/-- How the commits are tested, for examples. -/
def exFixParams (commits : List Oid) : Params { c // c ∈ commits } :=
  ⟨commits.attach, ⟨fun c => [c], fun c => [c]⟩, none, 1⟩

/-- The results of the tests, for examples: the first commit has the files of the first tree, and so on. -/
def exFixRun (commits : List Oid) (trees : List (Option Oid)) (w : RepoWorld) :
    RepoWorld × Option (LoopOutput { c // c ∈ commits }) :=
  (w, some ⟨⟨⟨fun c => [c], fun c => [c]⟩, []⟩,
    (commits.attach.zip trees).map fun x => (x.1, .passed false ⟨none, x.2⟩ false), none⟩)

/-- Non-vacuity: the setting. -/
theorem exFix_setting (patchId : Oid → Nat) (detect dry : Bool) (b : Oid) (hb : b ∈ exStackGraph.nodes)
    (commits : List Oid) (hc : ∀ c ∈ commits, c ∈ exStackGraph.nodes) (hn : commits.Nodup) :
    FixSetting (exFixEnv exStackCommits exFixNew patchId detect dry) t!"refs/heads/main" exStackGraph
      (exRestackWorld exStackEvents b) exStackEvents commits (exFixParams commits) where
  graph_wf := exStackGraph_wf
  refs_wf := by unfold AMap.WF; show [t!"refs/heads/main", t!"refs/heads/b"].Nodup; decide
  events := rfl
  synced := by
    have h0 : oidN 0 ∈ exStackGraph.nodes := by decide +kernel
    rintro h (h1 | h1 | ⟨br, h1, h2⟩ | h1)
    · cases h1; exact h0
    · cases h1; exact h0
    · have h2 : (if t!"refs/heads/main" = br then some (oidN 0) else
        if t!"refs/heads/b" = br then some b else none) = some h := h2
      split at h2
      · cases h2; exact h0
      split at h2
      · cases h2; exact hb
      · cases h2
    · by_contra hno
      have h3 : h ≠ oidN 1 := by rintro rfl; exact hno (by decide +kernel)
      have h4 : h ≠ oidN 2 := by rintro rfl; exact hno (by decide +kernel)
      have h5 : h ≠ oidN 3 := by rintro rfl; exact hno (by decide +kernel)
      simp [statusIn, exStackEvents, lastEffect, effectOn, h3.symm, h4.symm, h5.symm] at h1
  agrees := by
    intro c hc
    have hc : c ∈ [oidN 3, oidN 2, oidN 1, oidN 0] := hc
    simp only [List.mem_cons, List.not_mem_nil, or_false] at hc
    rcases hc with rfl | rfl | rfl | rfl
    · exact ⟨exCommit [oidN 0] 13 3, by rfl, by decide +kernel⟩
    · exact ⟨exCommit [oidN 1] 12 2, by rfl, by decide +kernel⟩
    · exact ⟨exCommit [oidN 0] 11 1, by rfl, by decide +kernel⟩
    · exact ⟨exCommit [] 10 0, by rfl, by decide +kernel⟩
  no_collisions := exExec_noCollisions (commits := exStackCommits) (new := exFixNew) (picks := [])
    (amends := []) (by decide) (by decide)
  vec l x := List.mem_dedup
  vec_nodup l := List.nodup_dedup l
  sort l x := List.mem_dedup
  commits_mem := hc
  tested_nodup := List.nodup_attach.2 hn

/-- Non-vacuity of `test_fix`: both commits of a stack are fixed; `HEAD` stays on the main branch, and the branch `b`
is moved. -/
example : ∃ w' es', testFix (exFixEnv exStackCommits exFixNew (fun c => c.val) true false) t!"refs/heads/main"
      exStackGraph none (exRestackWorld exStackEvents (oidN 2)) [oidN 1, oidN 2] (exFixParams _)
      (exFixRun _ [some (oidN 20), some (oidN 21)]) =
        (w', .done [(oidN 1, .nonZero (oidN 9)), (oidN 2, .nonZero (oidN 10))]) ∧
    w'.db.getEvents = some es' ∧
    findRewriteTarget (Replayer.fromEvents t!"refs/heads/main" es') ⟨es'.length⟩ (oidN 1) =
      some (.nonZero (oidN 9)) ∧
    w'.git.refs.get? t!"refs/heads/b" = some (oidN 10) := by
  refine ⟨_, _, rfl, rfl, ?_⟩
  decide +kernel

/-- Non-vacuity: only the lower one is fixed; the upper one keeps its files. -/
example : ∃ w', testFix (exFixEnv exStackCommits exFixNew (fun c => c.val) true false) t!"refs/heads/main"
      exStackGraph none (exRestackWorld exStackEvents (oidN 2)) [oidN 1] (exFixParams _)
      (exFixRun _ [some (oidN 20)]) = (w', .done [(oidN 1, .nonZero (oidN 9))]) ∧
    w'.git.refs.get? t!"refs/heads/b" = some (oidN 11) := by
  refine ⟨_, rfl, ?_⟩
  decide +kernel

/-- Non-vacuity: the other ends. -/
example : let w := exRestackWorld exStackEvents (oidN 2)
    let env := exFixEnv exStackCommits exFixNew (fun c => c.val) true
    (testFix (env true) t!"refs/heads/main" exStackGraph none w [oidN 1, oidN 2] (exFixParams _)
      (exFixRun _ [some (oidN 20), some (oidN 21)])).2 =
        .dryRun [(oidN 1, .nonZero (oidN 7)), (oidN 2, .nonZero (oidN 8))] ∧
    (testFix (env false) t!"refs/heads/main" exStackGraph none w [oidN 1, oidN 2] (exFixParams _)
      (exFixRun _ [none, none])).2 = .nothing ∧
    (testFix (env false) t!"refs/heads/main" exStackGraph none w [oidN 1] (exFixParams _)
      (exFixRun _ [some (oidN 22)])).2 = .error ∧
    (testFix (env false) t!"refs/heads/main" exStackGraph none w [oidN 0] (exFixParams _)
      (exFixRun _ [some (oidN 20)])).2 = .refused (.planner (.movePublicCommits [oidN 0])) ∧
    (testFix { env false with forceRewritePublicCommits := true } t!"refs/heads/main" exStackGraph none w [oidN 0]
      (exFixParams _) (exFixRun _ [some (oidN 20)])).2 = .error ∧
    (testFix { env false with forceOnDisk := true } t!"refs/heads/main" exStackGraph none w [oidN 1]
      (exFixParams _) (exFixRun _ [some (oidN 20)])).2 = .refused .onDisk := by
  refine ⟨?_, ?_, ?_, ?_, ?_, ?_⟩ <;> rfl

/-- C73: a commit can be lost. The commits `1` and `2` on top of `0` are fixed, and `2` has the same patch as `0`
(for example, `1` reverts what `0` did, and `2` applies it again). Since duplicates are looked for (which is the
default), `2` is dropped, and the branch which was there is deleted. -/
theorem test_fix_drops : ∃ w' es', testFix
      (exFixEnv exStackCommits exFixNew (fun c => if c.val = 3 then 1 else c.val) true false)
      t!"refs/heads/main" exStackGraph none (exRestackWorld exStackEvents (oidN 2)) [oidN 1, oidN 2]
      (exFixParams _) (exFixRun _ [some (oidN 20), some (oidN 21)]) =
        (w', .done [(oidN 1, .nonZero (oidN 9)), (oidN 2, .zero)]) ∧
    w'.db.getEvents = some es' ∧
    findRewriteTarget (Replayer.fromEvents t!"refs/heads/main" es') ⟨es'.length⟩ (oidN 2) = some .zero ∧
    w'.git.refs.get? t!"refs/heads/b" = none := by
  refine ⟨_, _, rfl, rfl, ?_⟩
  decide +kernel

end Verif.Props
