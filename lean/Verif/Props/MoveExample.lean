import Verif.Props.Move
import Verif.Props.Restack
import Verif.Props.Navigate
import Mathlib.Data.List.Dedup

/-! Concrete cases for `move`. -/

namespace Verif.Props

open Verif Verif.Spec

/-- The environment of the examples; rebases are made in memory. -/
def exMoveEnv (commits : List (Oid × CommitData)) (new : List (CommitData × Oid))
    (picks amends : List ((Oid × Oid) × Nat)) : MoveCmdEnv :=
  ⟨⟨List.dedup, fun _ => true, fun _ => 0, insertionSortBy, fun _ _ => .ok none, false⟩, List.head?,
    fun c => c.val, fun c => c.val, false, false, exExec commits new picks amends,
    fun _ => exFinish fun _ => false, ⟨none, false, false, fun w => (w, 0)⟩, ⟨false, false, false⟩⟩

theorem exMoveEnv_set (commits : List (Oid × CommitData)) (new : List (CommitData × Oid))
    (picks amends : List ((Oid × Oid) × Nat)) : SetContract (exMoveEnv commits new picks amends) where
  mem l x := List.mem_dedup
  nodup l := List.nodup_dedup l
  first_mem l x h := List.mem_of_mem_head? h
  first_some l h := by cases l <;> simp_all [exMoveEnv]
  sort cmp l := insertionSortBy_contract.perm cmp l
  exist x := rfl

/-- A stack `1`, `2` on the main branch `0`, and the commit `3` there. -/
def exStackGraph : CommitGraph Oid :=
  ⟨[(oidN 3, [oidN 0]), (oidN 2, [oidN 1]), (oidN 1, [oidN 0]), (oidN 0, [])]⟩

def exStackCommits : List (Oid × CommitData) :=
  [(oidN 0, exCommit [] 10 0), (oidN 1, exCommit [oidN 0] 11 1), (oidN 2, exCommit [oidN 1] 12 2),
    (oidN 3, exCommit [oidN 0] 13 3)]

def exStackEvents : List Event :=
  [.commit 1 (.id 1) (oidN 1), .commit 2 (.id 2) (oidN 2), .commit 3 (.id 3) (oidN 3)]

def exStackEnv : MoveCmdEnv :=
  exMoveEnv exStackCommits [(exNew [oidN 3] 21 1, oidN 8), (exNew [oidN 8] 22 2, oidN 9)]
    [((oidN 1, oidN 3), 21), ((oidN 2, oidN 8), 22)] []

theorem exStackGraph_wf : WFGraph exStackGraph := by
  unfold WFGraph exStackGraph
  repeat (first | exact .nil | refine .cons (by decide) (by decide) ?_)

example : SetContract exStackEnv ∧ NoCollisions exStackEnv.exec ∧ InMemoryOnly exStackEnv.options :=
  ⟨exMoveEnv_set _ _ _ _,
    exExec_noCollisions (commits := exStackCommits)
      (new := [(exNew [oidN 3] 21 1, oidN 8), (exNew [oidN 8] 22 2, oidN 9)])
      (picks := [((oidN 1, oidN 3), 21), ((oidN 2, oidN 8), 22)]) (amends := []) (by decide) (by decide),
    rfl, .inr rfl⟩

/-- Non-vacuity: `move -b 2 -d 3` (and the same without `-b`, when `2` is checked out) moves `1` and `2`. -/
example : ∀ args ∈ [(⟨[], [oidN 2], [], true, some [oidN 3], some (oidN 0), false, false⟩ : MoveArgs),
      ⟨[], [], [], false, some [oidN 3], some (oidN 2), false, false⟩,
      ⟨[oidN 1, oidN 2], [], [], true, none, some (oidN 3), false, false⟩],
    ∃ w' es', moveCommits exStackEnv t!"refs/heads/main" exStackGraph none
      (exRestackWorld exStackEvents (oidN 2)) args = (w', .done) ∧ w'.db.getEvents = some es' ∧
    findRewriteTarget (Replayer.fromEvents t!"refs/heads/main" es') ⟨es'.length⟩ (oidN 1) =
      some (.nonZero (oidN 8)) ∧
    findRewriteTarget (Replayer.fromEvents t!"refs/heads/main" es') ⟨es'.length⟩ (oidN 2) =
      some (.nonZero (oidN 9)) ∧
    w'.git.refs.get? t!"refs/heads/b" = some (oidN 9) := by
  intro args ha
  simp only [List.mem_cons, List.not_mem_nil, or_false] at ha
  rcases ha with rfl | rfl | rfl
  · refine ⟨_, _, rfl, rfl, ?_⟩
    decide +kernel
  · refine ⟨_, _, rfl, rfl, ?_⟩
    decide +kernel
  · refine ⟨_, _, rfl, rfl, ?_⟩
    decide +kernel

/-- Non-vacuity of `base_exact`: both kinds of bases. -/
example : IsBase exStackGraph (oidN 2) (oidN 3) (oidN 1) ∧ IsBase exStackGraph (oidN 0) (oidN 3) (oidN 0) := by
  refine ⟨.inr ⟨?_, ?_, ?_, .inl ⟨oidN 0, ?_, ?_⟩⟩, .inl ⟨?_, rfl⟩⟩
  · exact not_isAnc_of exStackGraph_wf (by decide) (by decide +kernel)
  · exact isAnc_of exStackGraph_wf (by decide +kernel)
  · exact not_isAnc_of exStackGraph_wf (by decide) (by decide +kernel)
  · obtain ⟨h1, h2, h3, h4⟩ := gcaOne_some exStackGraph_wf
      (show exStackGraph.gcaOne [oidN 2, oidN 3] = some (oidN 0) by decide +kernel)
    exact ⟨h1, h2, h3, h4⟩
  · exact ⟨[oidN 0], by decide, by decide⟩
  · exact isAnc_of exStackGraph_wf (by decide +kernel)

/-- Non-vacuity of `move_sources_plan`: a commit cannot be moved onto its descendant, nor a commit of the
main branch. -/
example : ∃ r d, openRepoDag exStackGraph t!"refs/heads/main" (exRestackWorld exStackEvents (oidN 2)) =
      some (r, d) ∧
    movePlan exStackEnv d false false [oidN 1] [] (oidN 2) =
      .ok (.error (.planner (.constraintCycle [oidN 1, oidN 2, oidN 1]))) ∧
    movePlan exStackEnv d false false [oidN 0] [] (oidN 2) =
      .ok (.error (.planner (.movePublicCommits [oidN 0]))) ∧
    movePlan exStackEnv d false false [] [] (oidN 2) = .ok (.ok none) := by
  refine ⟨_, _, rfl, ?_⟩
  decide +kernel

/-! ### what the help text does not say -/

/-- The help for `--source` says that "this commit, and all of its descendants, will be moved". With the
sources `1` and `3` of the stack `1`, `2`, `3` the stack is torn apart: the roots of the set are both of
them, for they are not adjacent. So `3` is put beside `1` on the destination and not on `2`. -/
theorem nested_sources_torn_apart :
    let graph : CommitGraph Oid := ⟨[(oidN 4, [oidN 0]), (oidN 3, [oidN 2]), (oidN 2, [oidN 1]),
      (oidN 1, [oidN 0]), (oidN 0, [])]⟩
    let es : List Event := [.commit 1 (.id 1) (oidN 1), .commit 2 (.id 2) (oidN 2), .commit 3 (.id 3) (oidN 3),
      .commit 4 (.id 4) (oidN 4)]
    let env := exMoveEnv ([(oidN 0, exCommit [] 10 0), (oidN 1, exCommit [oidN 0] 11 1),
        (oidN 2, exCommit [oidN 1] 12 2), (oidN 3, exCommit [oidN 2] 13 3), (oidN 4, exCommit [oidN 0] 14 4)])
      [(exNew [oidN 4] 21 1, oidN 8), (exNew [oidN 8] 22 2, oidN 9), (exNew [oidN 4] 23 3, oidN 10)]
      [((oidN 1, oidN 4), 21), ((oidN 2, oidN 8), 22), ((oidN 3, oidN 4), 23)] []
    ∃ w' es', moveCommits env t!"refs/heads/main" graph none (exRestackWorld es (oidN 3))
        ⟨[oidN 1, oidN 3], [], [], true, some [oidN 4], some (oidN 0), false, false⟩ = (w', .done) ∧
      w'.db.getEvents = some es' ∧
      findRewriteTarget (Replayer.fromEvents t!"refs/heads/main" es') ⟨es'.length⟩ (oidN 2) =
        some (.nonZero (oidN 9)) ∧
      findRewriteTarget (Replayer.fromEvents t!"refs/heads/main" es') ⟨es'.length⟩ (oidN 3) =
        some (.nonZero (oidN 10)) := by
  refine ⟨_, _, rfl, rfl, ?_⟩
  decide +kernel

/-- The help for `--base` says that "the entire subtree, starting from the main branch, will be moved". It
is only moved from where the destination branched off: with the stack `1`, `2` on the main branch and the
child `3` of `1`, the base of `2` is `2` itself when the destination is `3`. -/
theorem base_not_from_main :
    let graph : CommitGraph Oid := ⟨[(oidN 3, [oidN 1]), (oidN 2, [oidN 1]), (oidN 1, [oidN 0]), (oidN 0, [])]⟩
    let es : List Event := [.commit 1 (.id 1) (oidN 1), .commit 2 (.id 2) (oidN 2), .commit 3 (.id 3) (oidN 3)]
    let w := exRestackWorld es (oidN 2)
    ¬ OnMain graph t!"refs/heads/main" w.git (oidN 1) ∧ Anc graph (oidN 1) (oidN 2) ∧
    ∃ r d, openRepoDag graph t!"refs/heads/main" w = some (r, d) ∧
      moveInputs exStackEnv d ⟨[], [oidN 2], [], true, some [oidN 3], some (oidN 0), false, false⟩ =
        .ok (.ok ([oidN 2], [], oidN 3)) := by
  have hg : WFGraph (⟨[(oidN 3, [oidN 1]), (oidN 2, [oidN 1]), (oidN 1, [oidN 0]), (oidN 0, [])]⟩ :
    CommitGraph Oid) := by
      unfold WFGraph
      repeat (first | exact .nil | refine .cons (by decide) (by decide) ?_)
  refine ⟨?_, isAnc_of hg (by decide +kernel), _, _, rfl, ?_⟩
  · rintro ⟨o, ho, h⟩
    have ho' : some (oidN 0) = some o := ho
    obtain rfl := Option.some.inj ho'
    exact not_isAnc_of hg (by decide) (by decide +kernel) h
  · decide +kernel

end Verif.Props
