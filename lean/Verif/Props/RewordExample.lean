import Verif.Props.RewordCommand
import Verif.Props.MoveExample

/-! Concrete repositories for the theorems about `reword`, and what it does not do well. -/

namespace Verif.Props

open Verif Verif.Spec

/-- The files of a commit, for examples: among those which exist, or those which can be made. -/
def exTreeOf (commits : List (Oid × CommitData)) (new : List (CommitData × Oid)) (q : Oid) : Option Nat :=
  match AMap.get? commits q with
  | some d => some d.tree
  | none => (new.find? fun x => x.2 = q).map (·.1.tree)

/-- A repository for examples in which a commit can be put onto commits with the same files as its parent,
and only onto those. -/
def exCleanExec (commits : List (Oid × CommitData)) (new : List (CommitData × Oid)) : ExecEnv :=
  { exExec commits new [] [] with
    cherryPickFast := fun a q =>
      match AMap.get? commits a with
      | some d =>
        match d.parents with
        | [p] => if exTreeOf commits new p = exTreeOf commits new q then .ok d.tree else .error (.conflict [])
        | _ => .error (.conflict [])
      | none => .error (.conflict []) }

theorem exCleanExec_noCollisions {commits : List (Oid × CommitData)} {new : List (CommitData × Oid)}
    (h1 : (new.map Prod.snd).Nodup) (h2 : ∀ x ∈ new, x.2 ∉ commits.map Prod.fst) :
    NoCollisions (exCleanExec commits new) := by
  obtain ⟨h3, h4⟩ := exExec_noCollisions (picks := []) (amends := []) h1 h2
  exact ⟨h3, h4⟩

theorem exCleanExec_clean {commits : List (Oid × CommitData)} {new : List (CommitData × Oid)}
    (h1 : (new.map Prod.snd).Nodup) (h2 : ∀ x ∈ new, x.2 ∉ commits.map Prod.fst) :
    CleanPicks (exCleanExec commits new) := by
  intro c d p dp q b hc hp hdp hq ht
  replace hc : AMap.get? commits c = some d := hc
  replace hdp : AMap.get? commits p = some dp := hdp
  have htp : exTreeOf commits new p = some dp.tree := by unfold exTreeOf; rw [hdp]
  have htq : exTreeOf commits new q = some b.tree := by
    unfold exTreeOf
    rcases hq with hq | hq
    · have hq : AMap.get? commits q = some b := hq
      rw [hq]
    · replace hq : AMap.get? new b = some q := hq
      have hm := AMap.mem_of_get? hq
      have hn : AMap.get? commits q = none := by
        cases h : AMap.get? commits q with
        | none => rfl
        | some x => exact absurd (List.mem_map.2 ⟨_, AMap.mem_of_get? h, rfl⟩) (h2 _ hm)
      rw [hn]
      have : (new.find? fun x => x.2 = q) = some (b, q) := by
        clear hq hn hdp htp hc
        induction new with
        | nil => simp at hm
        | cons x l ih =>
          rw [List.map_cons, List.nodup_cons] at h1
          rcases List.mem_cons.1 hm with rfl | hm
          · simp
          · have : x.2 ≠ q := fun h => h1.1 (List.mem_map.2 ⟨_, hm, h.symm⟩)
            rw [List.find?_cons_of_neg (by simpa using this)]
            exact ih h1.2 (fun y hy => h2 y (List.mem_cons_of_mem _ hy)) hm
      rw [this]
      rfl
  show (match AMap.get? commits c with
    | some d =>
      match d.parents with
      | [p] => if exTreeOf commits new p = exTreeOf commits new q then .ok d.tree else .error (.conflict [])
      | _ => .error (.conflict [])
    | none => .error (.conflict []) : Except FastError Nat) = .ok d.tree
  rw [hc]
  simp only [hp, htp, htq, ht, if_true]

/-- The command, for examples. -/
def exRewordEnv (commits : List (Oid × CommitData)) (new : List (CommitData × Oid)) : RewordEnv :=
  ⟨fun c => c.val, fun c => c.val, List.dedup, false, '#', [], fun t => .ok t, fun _ => t!"short",
    fun _ => some t!"old", exCleanExec commits new, fun _ => exFinish fun _ => false,
    ⟨none, false, false, fun w => (w, 0)⟩⟩

/-- The commit with another message. -/
def exRenamed (d : CommitData) (m : Text) : CommitData := { d with message := some m }

/-- `7` is `1` with the new message; `8` is the same with the present time, and `9` is `2` on top of that. -/
def exRewordNew : List (CommitData × Oid) :=
  [(exRenamed (exCommit [oidN 0] 11 1) t!"new\n", oidN 7), (exRenamed (exNew [oidN 0] 11 1) t!"new\n", oidN 8),
    (exNew [oidN 8] 12 2, oidN 9), (exRenamed (exCommit [oidN 1] 12 2) t!"new\n", oidN 10),
    (exRenamed (exNew [oidN 8] 12 2) t!"new\n", oidN 11),
    (exRenamed (exCommit [oidN 0] 11 1) t!"fixup! old\n", oidN 12),
    (exRenamed (exNew [oidN 0] 11 1) t!"fixup! old\n", oidN 13), (exNew [oidN 13] 12 2, oidN 14),
    (exNew [oidN 8] 11 2, oidN 15)]

def exRewordStack : RewordEnv := exRewordEnv exStackCommits exRewordNew

/-- Non-vacuity: the hypotheses about the repository. -/
theorem exRewordStack_ok : Agrees exStackGraph exRewordStack.exec ∧ NoCollisions exRewordStack.exec ∧
    CleanPicks exRewordStack.exec := by
  refine ⟨?_, exCleanExec_noCollisions (by decide) (by decide), exCleanExec_clean (by decide) (by decide)⟩
  intro c hc
  have hc : c ∈ [oidN 3, oidN 2, oidN 1, oidN 0] := hc
  simp only [List.mem_cons, List.not_mem_nil, or_false] at hc
  rcases hc with rfl | rfl | rfl | rfl
  · exact ⟨exCommit [oidN 0] 13 3, by decide +kernel, by decide +kernel⟩
  · exact ⟨exCommit [oidN 1] 12 2, by decide +kernel, by decide +kernel⟩
  · exact ⟨exCommit [oidN 0] 11 1, by decide +kernel, by decide +kernel⟩
  · exact ⟨exCommit [] 10 0, by decide +kernel, by decide +kernel⟩

/-- Non-vacuity of `reword_command` and `reword_no_conflicts`: `reword 1 -m new`. -/
example : ∃ w' es', reword exRewordStack t!"refs/heads/main" exStackGraph none
      (exRestackWorld exStackEvents (oidN 2)) [oidN 1] (.given (.messages [t!"new"])) = (w', .done) ∧
    w'.db.getEvents = some es' ∧
    findRewriteTarget (Replayer.fromEvents t!"refs/heads/main" es') ⟨es'.length⟩ (oidN 1) =
      some (.nonZero (oidN 8)) ∧
    findRewriteTarget (Replayer.fromEvents t!"refs/heads/main" es') ⟨es'.length⟩ (oidN 2) =
      some (.nonZero (oidN 9)) ∧
    findRewriteTarget (Replayer.fromEvents t!"refs/heads/main" es') ⟨es'.length⟩ (oidN 3) = none ∧
    w'.git.refs.get? t!"refs/heads/b" = some (oidN 9) := by
  refine ⟨_, _, rfl, rfl, ?_⟩
  decide +kernel

/-- Non-vacuity: `reword '1 + 2' -m new`, both commits get the message. -/
example : ∃ w' es', reword exRewordStack t!"refs/heads/main" exStackGraph none
      (exRestackWorld exStackEvents (oidN 2)) [oidN 1, oidN 2] (.given (.messages [t!"new"])) = (w', .done) ∧
    w'.db.getEvents = some es' ∧
    findRewriteTarget (Replayer.fromEvents t!"refs/heads/main" es') ⟨es'.length⟩ (oidN 2) =
      some (.nonZero (oidN 11)) ∧
    w'.git.refs.get? t!"refs/heads/b" = some (oidN 11) := by
  refine ⟨_, _, rfl, rfl, ?_⟩
  decide +kernel

/-- Non-vacuity of `reword_fixup_exact`, and of the refusals. -/
example : let w := exRestackWorld exStackEvents (oidN 2)
    (∃ r d perms, openRepoDag exStackGraph t!"refs/heads/main" w = some (r, d) ∧
      verifyRewriteSet d false false [oidN 1] = .ok perms) ∧
    (reword exRewordStack t!"refs/heads/main" exStackGraph none w [oidN 1] (.fixUp [oidN 0])).2 = .done ∧
    (reword exRewordStack t!"refs/heads/main" exStackGraph none w [oidN 1] (.fixUp [oidN 3])).2 =
      .refused .fixupNotAncestor ∧
    (reword exRewordStack t!"refs/heads/main" exStackGraph none w [oidN 1] (.fixUp [oidN 0, oidN 1])).2 =
      .refused (.fixupCount 2) ∧
    (reword exRewordStack t!"refs/heads/main" exStackGraph none w [oidN 1] (.given .discard)).2 =
      .refused .identical ∧
    (reword exRewordStack t!"refs/heads/main" exStackGraph none w [oidN 0] (.given (.messages [t!"new"]))).2 =
      .refused (.planner (.movePublicCommits [oidN 0])) := by
  refine ⟨⟨_, _, _, rfl, rfl⟩, ?_⟩
  decide +kernel

/-! ### merge commits above -/

/-- `3` is a merge of `1` and `2`, which are both on the main branch. -/
def exRewordMergeGraph : CommitGraph Oid :=
  ⟨[(oidN 3, [oidN 1, oidN 2]), (oidN 2, [oidN 0]), (oidN 1, [oidN 0]), (oidN 0, [])]⟩

def exRewordMerge : RewordEnv :=
  exRewordEnv [(oidN 0, exCommit [] 10 0), (oidN 1, exCommit [oidN 0] 11 1), (oidN 2, exCommit [oidN 0] 12 2),
    (oidN 3, exCommit [oidN 1, oidN 2] 13 3)] exRewordNew

theorem exRewordMergeGraph_wf : WFGraph exRewordMergeGraph := by
  unfold WFGraph exRewordMergeGraph
  repeat (first | exact .nil | refine .cons (by decide) (by decide) ?_)

/-- C65: a merge commit above a commit makes it impossible to give this commit another message, although the
program says then that "rewording shouldn't cause any merge failures" and asks to report a bug. -/
theorem reword_below_merge_fails :
    Agrees exRewordMergeGraph exRewordMerge.exec ∧ NoCollisions exRewordMerge.exec ∧
    CleanPicks exRewordMerge.exec ∧
    Affected exRewordMergeGraph (Seen exRewordMergeGraph t!"refs/heads/main"
      (exRestackWorld exStackEvents (oidN 3)).git exStackEvents) [oidN 1] (oidN 3) ∧
    (reword exRewordMerge t!"refs/heads/main" exRewordMergeGraph none (exRestackWorld exStackEvents (oidN 3))
      [oidN 1] (.given (.messages [t!"new"]))).2 = .declined (.cannotRebaseMergeInMemory (oidN 3)) := by
  refine ⟨?_, exCleanExec_noCollisions (by decide) (by decide), exCleanExec_clean (by decide) (by decide), ?_,
    by decide +kernel⟩
  · intro c hc
    have hc : c ∈ [oidN 3, oidN 2, oidN 1, oidN 0] := hc
    simp only [List.mem_cons, List.not_mem_nil, or_false] at hc
    rcases hc with rfl | rfl | rfl | rfl
    · exact ⟨exCommit [oidN 1, oidN 2] 13 3, by decide +kernel, by decide +kernel⟩
    · exact ⟨exCommit [oidN 0] 12 2, by decide +kernel, by decide +kernel⟩
    · exact ⟨exCommit [oidN 0] 11 1, by decide +kernel, by decide +kernel⟩
    · exact ⟨exCommit [] 10 0, by decide +kernel, by decide +kernel⟩
  · refine .inr ⟨?_, oidN 1, by simp, isAnc_of exRewordMergeGraph_wf (by decide +kernel)⟩
    obtain ⟨r, d, hd⟩ : ∃ r d, openRepoDag exRewordMergeGraph t!"refs/heads/main"
      (exRestackWorld exStackEvents (oidN 3)) = some (r, d) := ⟨_, _, rfl⟩
    refine (seen_opened exRewordMergeGraph_wf (by unfold AMap.WF; decide +kernel) rfl hd _).2 ?_
    have : (oidN 3) ∈ d.visibleHeads := by
      have h : d.visibleHeads = ((openRepoDag exRewordMergeGraph t!"refs/heads/main"
        (exRestackWorld exStackEvents (oidN 3))).map fun x => x.2.visibleHeads).getD [] := by rw [hd]; rfl
      rw [h]
      decide +kernel
    exact ⟨by decide, oidN 3, this, .refl⟩

/-! ### other surprises -/

/-- C65: a commit without changes above a reworded commit is lost: here `2` has the same files as `1`. -/
theorem reword_drops_empty :
    ∃ w' es', reword (exRewordEnv [(oidN 0, exCommit [] 10 0), (oidN 1, exCommit [oidN 0] 11 1),
          (oidN 2, exCommit [oidN 1] 11 2), (oidN 3, exCommit [oidN 0] 13 3)] exRewordNew)
        t!"refs/heads/main" exStackGraph none (exRestackWorld exStackEvents (oidN 2)) [oidN 1]
        (.given (.messages [t!"new"])) = (w', .done) ∧
      w'.db.getEvents = some es' ∧
      findRewriteTarget (Replayer.fromEvents t!"refs/heads/main" es') ⟨es'.length⟩ (oidN 2) = some .zero := by
  refine ⟨_, _, rfl, rfl, ?_⟩
  decide +kernel

/-- Non-vacuity of `reword_root_fails`: `4` has no parents, and is not on the main branch. -/
example : (reword (exRewordEnv ((oidN 4, exCommit [] 14 4) :: exStackCommits)
      ((exRenamed (exCommit [] 14 4) t!"new\n", oidN 7) :: [])) t!"refs/heads/main"
      ⟨[(oidN 4, []), (oidN 3, [oidN 0]), (oidN 2, [oidN 1]), (oidN 1, [oidN 0]), (oidN 0, [])]⟩ none
      (exRestackWorld (.commit 4 (.id 4) (oidN 4) :: exStackEvents) (oidN 2)) [oidN 4]
      (.given (.messages [t!"new"]))).2 = .error := by
  decide +kernel

end Verif.Props
